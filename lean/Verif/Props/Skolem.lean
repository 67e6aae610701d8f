import Verif.SkolemLemmas
/-
C28: Skolemisation.
-/
namespace Gkc.Props
open Gkc.Clausify

/-- and, or, atoms and negated atoms only, two arguments each -/
inductive QFree : Frm → Prop
  | at (t : FT) : QFree (.at t)
  | neg (t : FT) : QFree (.neg (.at t))
  | and {a b : Frm} : QFree a → QFree b → QFree (.and [a, b])
  | or {a b : Frm} : QFree a → QFree b → QFree (.or [a, b])

theorem QFree.notBound {g : Frm} (h : QFree g) (n : Nm) : ¬ boundIn n g := by
  induction h with
  | «at» t => exact id
  | neg t => exact id
  | and _ _ ha hb => simp only [boundIn, boundInL, or_false]; exact fun h => h.elim ha hb
  | or _ _ ha hb => simp only [boundIn, boundInL, or_false]; exact fun h => h.elim ha hb

/-- in a quantifier-free formula every symbol is a free name -/
theorem QFree.head {g : Frm} (h : QFree g) {n : Nm} (hn : headIn n g) : freeIn n g :=
  (head_name hn).resolve_right (h.notBound n)

/-- conditions on a subformula under the values `A` -/
structure FOk (A : Assoc) (sn : Nat) (f : Frm) : Prop where
  /-- variables are bound -/
  clo : ∀ n, freeIn n f → n.ty = 14 → look A n ≠ none
  /-- symbols are not bound -/
  hd : ∀ n, headIn n f → look A n = none ∧ ¬ boundIn n f
  /-- no later Skolem names -/
  sk : ∀ n k, nameIn n f → sn < k → n ≠ skName k

/-- names in the result -/
def NameFrom (A : Assoc) (V : Nat → Prop) (vn : Nat) (f : Frm) (vn' sn' : Nat) (m : Nm) : Prop :=
  (freeIn m f ∧ look A m = none) ∨ headIn m f ∨
    (∃ k, m = newVar k ∧ (V k ∨ vn < k ∧ k ≤ vn')) ∨ ∃ k, m = skName k ∧ k ≤ sn'

/-- equal on all names but Skolem names after `sn` -/
def AgreeTo {D : Type} (sn : Nat) (I J : FInt D) (ρ σ : Nm → D) : Prop :=
  ∀ n, (∀ k, sn < k → n ≠ skName k) → I.fn n = J.fn n ∧ I.pr n = J.pr n ∧ ρ n = σ n

theorem agree_env {D : Type} {A : Assoc} {V : Nat → Prop} {sn : Nat} (hA : AOk A V sn) {I J : FInt D}
    {ρ σ : Nm → D} (h : AgreeTo sn I J ρ σ) {n : Nm} (hn : ∀ k, sn < k → n ≠ skName k) :
    Aenv I ρ A n = Aenv J σ A n := by
  have hk : ∀ k, k ≤ sn → ∀ j, sn < j → skName k ≠ skName j := fun k hk j hj e => by
    have := skName_inj e; omega
  unfold Aenv
  cases e : look A n with
  | none => exact (h n hn).2.2
  | some t =>
    refine hA.ev (fun k hk' => (h _ (hk k hk')).1) (fun k hk' => (h _ (hk k hk')).2.2) (fun u hu => ?_) e
    obtain ⟨k, _, rfl⟩ := hA.univs hu
    simp only [FInt.ev]
    exact (h _ (fun j _ e => by cases e)).2.2

theorem agree_f {D : Type} {A : Assoc} {V : Nat → Prop} {sn : Nat} {f : Frm} (hA : AOk A V sn) (hf : FOk A sn f)
    {I J : FInt D} {ρ σ : Nm → D} (h : AgreeTo sn I J ρ σ) :
    I.holds (Aenv I ρ A) f ↔ J.holds (Aenv J σ A) f :=
  holds_congr f (fun n hn => agree_env hA h (fun k hk => hf.sk n k (.inl hn) hk))
    (fun n hn => have := h n (fun k hk => hf.sk n k (head_name hn) hk); ⟨this.1, this.2.1⟩)

/-- the result of Skolemisation -/
structure SkRes (A : Assoc) (V : Nat → Prop) (vn sn : Nat) (f g : Frm) (vn' sn' : Nat) : Prop where
  vle : vn ≤ vn'
  sle : sn ≤ sn'
  qf : QFree g
  names : ∀ m, freeIn m g → NameFrom A V vn f vn' sn' m
  /-- from the result, with all values for the new variables, to the formula -/
  back : ∀ {D : Type} (I : FInt D) (ρ : Nm → D),
    (∀ τ : Nm → D, (∀ n, (∀ k, vn < k → k ≤ vn' → n ≠ newVar k) → τ n = ρ n) → I.holds τ g) →
      I.holds (Aenv I ρ A) f
  /-- from the formula to the result, for suitable Skolem functions -/
  forth : ∀ {D : Type} (I : FInt D) (ρ : Nm → D), ∃ (J : FInt D) (σ : Nm → D),
    (∀ n, (∀ k, sn < k → k ≤ sn' → n ≠ skName k) → J.fn n = I.fn n ∧ J.pr n = I.pr n ∧ σ n = ρ n) ∧
    ∀ τ : Nm → D, (∀ n, n.ty ≠ 14 → τ n = σ n) → J.holds (Aenv J τ A) f → J.holds τ g

theorem SkRes.noLater {A : Assoc} {V : Nat → Prop} {vn sn : Nat} {f g : Frm} {vn' sn' : Nat}
    (h : SkRes A V vn sn f g vn' sn') (hf : FOk A sn f) {m : Nm} (hm : freeIn m g) {k : Nat} (hk : sn' < k) :
    m ≠ skName k := by
  have := h.sle
  rcases h.names m hm with h | h | ⟨j, rfl, _⟩ | ⟨j, rfl, hj⟩
  · exact hf.sk m k (.inl h.1) (by omega)
  · exact hf.sk m k (head_name h) (by omega)
  · intro e; cases e
  · intro e
    have := skName_inj e; omega

theorem SkRes.agree {A : Assoc} {V : Nat → Prop} {vn sn : Nat} {f g : Frm} {vn' sn' : Nat}
    (h : SkRes A V vn sn f g vn' sn') (hf : FOk A sn f) {D : Type} {I J : FInt D} {ρ σ : Nm → D}
    (ha : AgreeTo sn' I J ρ σ) : I.holds ρ g ↔ J.holds σ g :=
  holds_congr g (fun _ hn => (ha _ (fun _ hk => h.noLater hf hn hk)).2.2)
    (fun _ hn => have := ha _ (fun _ hk => h.noLater hf (h.qf.head hn) hk); ⟨this.1, this.2.1⟩)

/-- which new variables are in the result -/
theorem SkRes.vars {A : Assoc} {V : Nat → Prop} {vn sn : Nat} {f g : Frm} {vn' sn' : Nat}
    (h : SkRes A V vn sn f g vn' sn') (hf : FOk A sn f) {k : Nat} (hm : freeIn (newVar k) g) :
    V k ∨ vn < k ∧ k ≤ vn' := by
  rcases h.names _ hm with h | h | ⟨j, e, hj⟩ | ⟨j, e, _⟩
  · exact absurd h.2 (hf.clo _ h.1 rfl)
  · have hb := hf.hd _ h
    exact absurd hb.1 (hf.clo _ ((head_name h).resolve_right hb.2) rfl)
  · rw [newVar_inj e]; exact hj
  · cases e

theorem FOk.sub2 {A : Assoc} {sn : Nat} {c : Bool} {a b : Frm} (h : FOk A sn (junct c [a, b])) :
    FOk A sn a ∧ FOk A sn b := by
  refine ⟨⟨fun n hn => h.clo n (by simp [freeIn_junct, freeInL, hn]), fun n hn => ?_, fun n k hn => ?_⟩,
    ⟨fun n hn => h.clo n (by simp [freeIn_junct, freeInL, hn]), fun n hn => ?_, fun n k hn => ?_⟩⟩
  · have := h.hd n (by simp [headIn_junct, headInL, hn])
    simp only [boundIn_junct, boundInL, or_false, not_or] at this
    exact ⟨this.1, this.2.1⟩
  · exact h.sk n k (nameIn_junct2.2 (.inl hn))
  · have := h.hd n (by simp [headIn_junct, headInL, hn])
    simp only [boundIn_junct, boundInL, or_false, not_or] at this
    exact ⟨this.1, this.2.2⟩
  · exact h.sk n k (nameIn_junct2.2 (.inr hn))

theorem FOk.mono {A : Assoc} {sn sn' : Nat} {f : Frm} (h : FOk A sn f) (hs : sn ≤ sn') : FOk A sn' f :=
  ⟨h.clo, h.hd, fun n k hn hk => h.sk n k hn (by omega)⟩

theorem FOk.quant {mk : Nat → FT} {A A' : Assoc} {k k' sn : Nat} {vs : List Nm} {q : Bool} {f : Frm}
    (h : FOk A sn (quant q vs f)) (ok : AppendOk mk A k vs A' k') : FOk A' sn f := by
  refine ⟨fun n hn ht => ?_, fun n hn => ?_, fun n k hn => h.sk n k (nameIn_quant.2 (.inr hn))⟩
  · by_cases hv : n ∈ vs
    · obtain ⟨i, _, e⟩ := ok.new n hv
      rw [e]; simp
    · rw [ok.old n hv]
      exact h.clo n (freeIn_quant.2 ⟨hv, hn⟩) ht
  · have := h.hd n (headIn_quant.2 hn)
    simp only [boundIn_quant, not_or] at this
    exact ⟨by rw [ok.old n this.2.1]; exact this.1, this.2.2⟩

/-- literals -/
theorem repl_atom {A : Assoc} {t t' : FT} (hh : ∀ n ∈ headsA t, look A n = none) (h : repl A t = some t') :
    (∀ {D : Type} (I : FInt D) (ρ : Nm → D), I.atom ρ t' ↔ I.atom (Aenv I ρ A) t) ∧
    ∀ m ∈ namesT t', (m ∈ namesT t ∧ look A m = none) ∨ m ∈ headsA t ∨ ∃ n s, look A n = some s ∧ m ∈ namesT s := by
  cases t with
  | nm p =>
    simp only [repl, hh p (by simp [headsA]), Option.getD_none, Option.some.injEq] at h
    subst h
    exact ⟨fun I ρ => by simp [FInt.atom], fun m hm => .inl ⟨hm, by
      simp only [namesT, List.mem_singleton] at hm
      rw [hm]; exact hh p (by simp [headsA])⟩⟩
  | app p as =>
    refine ⟨fun {D} I ρ => ?_, fun m hm => ?_⟩
    · obtain ⟨as', e, s⟩ := replL_ok (D := D) (A := A) as (fun n hn => hh n (by simp [headsA, hn]))
      simp only [repl, hh p (by simp [headsA]), e, Option.map_some, Option.some.injEq] at h
      subst h
      simp only [FInt.atom, s]
    · have := repl_names (.app p as) t' (fun n hn => hh n (by simpa [headsA, headsT] using hn)) h hm
      rcases this with h | h | h
      · exact .inl h
      · exact .inr (.inl (by simpa [headsA, headsT] using h))
      · exact .inr (.inr h)

theorem skRes_lit {A : Assoc} {V : Nat → Prop} {vn sn : Nat} {t t' : FT} (hA : AOk A V sn) (s : Bool)
    (hf : FOk A sn (if s then .at t else .neg (.at t))) (h : repl A t = some t') :
    SkRes A V vn sn (if s then .at t else .neg (.at t)) (if s then .at t' else .neg (.at t')) vn sn := by
  have hd : ∀ n ∈ headsA t, look A n = none := fun n hn => (hf.hd n (by cases s <;> exact hn)).1
  obtain ⟨sem, nam⟩ := repl_atom hd h
  have sem' : ∀ {D : Type} (I : FInt D) (ρ : Nm → D), I.holds ρ (if s then .at t' else .neg (.at t')) ↔
      I.holds (Aenv I ρ A) (if s then .at t else .neg (.at t)) := fun I ρ => by
    cases s
    · simp only [Bool.false_eq_true, if_false, FInt.holds, sem I]
    · simp only [if_true, FInt.holds, sem I]
  refine ⟨Nat.le_refl _, Nat.le_refl _, ?_, fun m hm => ?_, fun I ρ hg => (sem' I ρ).1 (hg ρ (fun _ _ => rfl)), fun I ρ =>
    ⟨I, ρ, fun n _ => ⟨rfl, rfl, rfl⟩, fun τ _ hg => (sem' I τ).2 hg⟩⟩
  · cases s
    · exact .neg _
    · exact .at _
  · have hm : m ∈ namesT t' := by cases s <;> exact hm
    rcases nam m hm with h | h | ⟨n, u, e, h⟩
    · exact .inl ⟨by cases s <;> exact h.1, h.2⟩
    · exact .inr (.inl (by cases s <;> exact h))
    · rcases hA.names e h with ⟨k, hk, e⟩ | ⟨k, hk, e⟩
      · exact .inr (.inr (.inl ⟨k, e, .inl hk⟩))
      · exact .inr (.inr (.inr ⟨k, e, hk⟩))

/-- two arguments -/
theorem skRes_junct {A : Assoc} {V : Nat → Prop} {vn sn vn1 sn1 vn2 sn2 : Nat} {c : Bool} {a b ga gb : Frm}
    (hV : ∀ k, V k → k ≤ vn) (hA : AOk A V sn) (hf : FOk A sn (junct c [a, b])) (ra : SkRes A V vn sn a ga vn1 sn1)
    (rb : SkRes A V vn1 sn1 b gb vn2 sn2) : SkRes A V vn sn (junct c [a, b]) (junct c [ga, gb]) vn2 sn2 := by
  classical
  have h1 := ra.vle
  have h2 := ra.sle
  have h3 := rb.vle
  have h4 := rb.sle
  obtain ⟨fa, fb⟩ := hf.sub2
  have fb' := fb.mono h2
  refine ⟨by omega, by omega, ?_, ?_, ?_, ?_⟩
  · cases c
    · exact .or ra.qf rb.qf
    · exact .and ra.qf rb.qf
  · intro m hm
    simp only [freeIn_junct, freeInL, or_false] at hm
    unfold NameFrom
    simp only [freeIn_junct, freeInL, headIn_junct, headInL, or_false]
    rcases hm with hm | hm
    · rcases ra.names m hm with h | h | ⟨k, e, h⟩ | ⟨k, e, h⟩
      · exact .inl ⟨.inl h.1, h.2⟩
      · exact .inr (.inl (.inl h))
      · exact .inr (.inr (.inl ⟨k, e, h.imp id (fun h => ⟨h.1, by omega⟩)⟩))
      · exact .inr (.inr (.inr ⟨k, e, by omega⟩))
    · rcases rb.names m hm with h | h | ⟨k, e, h⟩ | ⟨k, e, h⟩
      · exact .inl ⟨.inr h.1, h.2⟩
      · exact .inr (.inl (.inr h))
      · exact .inr (.inr (.inl ⟨k, e, h.imp id (fun h => ⟨by omega, h.2⟩)⟩))
      · exact .inr (.inr (.inr ⟨k, e, by omega⟩))
  · intro D I ρ hg
    rw [holds_junct2]
    cases c
    · simp only [Bool.false_eq_true, if_false]
      by_cases ha : I.holds (Aenv I ρ A) a
      · exact .inl ha
      · right
        -- an assignment for which the first part fails
        have : ∃ τa : Nm → D, (∀ n, (∀ k, vn < k → k ≤ vn1 → n ≠ newVar k) → τa n = ρ n) ∧ ¬ I.holds τa ga := by
          apply Classical.byContradiction
          intro hc
          apply ha
          apply ra.back I ρ
          intro τ hτ
          apply Classical.byContradiction
          intro hn
          exact hc ⟨τ, hτ, hn⟩
        obtain ⟨τa, hta, hna⟩ := this
        apply rb.back I ρ
        intro τ hτ
        let τc : Nm → D := fun n => if ∃ k, vn < k ∧ k ≤ vn1 ∧ n = newVar k then τa n else τ n
        have hc := hg τc (fun n hn => by
          show (if ∃ k, vn < k ∧ k ≤ vn1 ∧ n = newVar k then τa n else τ n) = ρ n
          rw [if_neg (fun ⟨k, a, b, e⟩ => hn k a (by omega) e)]
          exact hτ n (fun k a b => hn k (by omega) b))
        rw [holds_junct2] at hc
        simp only [Bool.false_eq_true, if_false] at hc
        have ea : I.holds τc ga ↔ I.holds τa ga := holds_congr' ga (fun n hn => by
          show (if ∃ k, vn < k ∧ k ≤ vn1 ∧ n = newVar k then τa n else τ n) = τa n
          split
          · rfl
          · rename_i hk
            rw [hta n (fun k a b e => hk ⟨k, a, b, e⟩)]
            refine hτ n (fun k a b e => ?_)
            subst e
            rcases ra.vars fa hn with h | h
            · have := hV k h; omega
            · omega)
        have eb : I.holds τc gb ↔ I.holds τ gb := holds_congr' gb (fun n hn => by
          show (if ∃ k, vn < k ∧ k ≤ vn1 ∧ n = newVar k then τa n else τ n) = τ n
          rw [if_neg]
          rintro ⟨k, a, b, rfl⟩
          rcases rb.vars fb' hn with h | h
          · have := hV k h; omega
          · omega)
        rcases hc with hc | hc
        · exact absurd (ea.1 hc) hna
        · exact eb.1 hc
    · simp only [if_true]
      refine ⟨ra.back I ρ (fun τ hτ => ?_), rb.back I ρ (fun τ hτ => ?_)⟩
      · have := hg τ (fun n hn => hτ n (fun k a b => hn k a (by omega)))
        rw [holds_junct2] at this
        simp only [if_true] at this
        exact this.1
      · have := hg τ (fun n hn => hτ n (fun k a b => hn k (by omega) b))
        rw [holds_junct2] at this
        simp only [if_true] at this
        exact this.2
  · intro D I ρ
    obtain ⟨J1, σ1, g1, f1⟩ := ra.forth I ρ
    obtain ⟨J2, σ2, g2, f2⟩ := rb.forth J1 σ1
    refine ⟨J2, σ2, fun n hn => ?_, fun τ hτ hh => ?_⟩
    · have e1 := g1 n (fun k a b => hn k a (by omega))
      have e2 := g2 n (fun k a b => hn k (by omega) b)
      exact ⟨e2.1.trans e1.1, e2.2.1.trans e1.2.1, e2.2.2.trans e1.2.2⟩
    · have sa : J2.holds (Aenv J2 τ A) a → J2.holds τ ga := by
        intro ha
        let τ1 : Nm → D := fun n => if ∃ k, sn1 < k ∧ k ≤ sn2 ∧ n = skName k then σ1 n else τ n
        have ag : AgreeTo sn1 J1 J2 τ1 τ := fun n hn => by
          have := g2 n (fun k a _ => hn k a)
          refine ⟨this.1.symm, this.2.1.symm, ?_⟩
          show (if ∃ k, sn1 < k ∧ k ≤ sn2 ∧ n = skName k then σ1 n else τ n) = τ n
          rw [if_neg (fun ⟨k, a, _, e⟩ => hn k a e)]
        have ht : ∀ n, n.ty ≠ 14 → τ1 n = σ1 n := fun n hn => by
          show (if ∃ k, sn1 < k ∧ k ≤ sn2 ∧ n = skName k then σ1 n else τ n) = σ1 n
          split
          · rfl
          · rename_i hk
            rw [hτ n hn]
            exact (g2 n (fun k a b e => hk ⟨k, a, b, e⟩)).2.2
        have ha' : J1.holds (Aenv J1 τ1 A) a := (agree_f (hA.mono h2) (fa.mono h2) ag).2 ha
        exact (ra.agree fa ag).1 (f1 τ1 ht ha')
      have sb := f2 τ hτ
      rw [holds_junct2] at hh ⊢
      cases c
      · exact hh.imp sa sb
      · exact ⟨sa hh.1, sb hh.2⟩

/-- a universal quantifier -/
theorem skRes_all {A A' : Assoc} {V : Nat → Prop} {vn sn vn1 vn' sn' : Nat} {vs : List Nm} {f g : Frm}
    (hV : ∀ k, V k → k ≤ vn) (hA : AOk A V sn) (hf : FOk A sn (.all vs f))
    (ok : AppendOk (fun k => .nm (newVar k)) A vn vs A' vn1)
    (r : SkRes A' (fun k => V k ∨ vn < k ∧ k ≤ vn1) vn1 sn f g vn' sn') : SkRes A V vn sn (.all vs f) g vn' sn' := by
  classical
  have hc := ok.cnt
  have h1 := r.vle
  have hf' : FOk A' sn f := FOk.quant (q := true) hf ok
  refine ⟨by omega, r.sle, r.qf, ?_, ?_, ?_⟩
  · intro m hm
    rcases r.names m hm with h | h | ⟨k, e, h⟩ | h
    · refine .inl ⟨⟨fun hv => ?_, h.1⟩, ?_⟩
      · obtain ⟨i, _, e⟩ := ok.new m hv
        rw [e] at h; simp at h
      · by_cases hv : m ∈ vs
        · obtain ⟨i, _, e⟩ := ok.new m hv
          rw [e] at h; simp at h
        · rw [← ok.old m hv]; exact h.2
    · exact .inr (.inl h)
    · refine .inr (.inr (.inl ⟨k, e, ?_⟩))
      rcases h with (h | h) | h
      · exact .inl h
      · exact .inr ⟨h.1, by omega⟩
      · exact .inr ⟨by omega, h.2⟩
    · exact .inr (.inr (.inr h))
  · intro D I ρ hg
    rw [FInt.holds]
    intro w hw
    -- the new variables get the values of the quantified ones
    let ρ' : Nm → D := fun n => if h : ∃ i v, vs[i]? = some v ∧ n = newVar (vn + 1 + i)
      then w (Classical.choose (Classical.choose_spec h)) else ρ n
    have hnew : ∀ i v, vs[i]? = some v → ρ' (newVar (vn + 1 + i)) = w v := by
      intro i v hi
      have h : ∃ j u, vs[j]? = some u ∧ newVar (vn + 1 + i) = newVar (vn + 1 + j) := ⟨i, v, hi, rfl⟩
      show (if h : ∃ j u, vs[j]? = some u ∧ newVar (vn + 1 + i) = newVar (vn + 1 + j)
        then w (Classical.choose (Classical.choose_spec h)) else _) = w v
      rw [dif_pos h]
      have hs := Classical.choose_spec (Classical.choose_spec h)
      have e : Classical.choose h = i := by
        have := newVar_inj hs.2; omega
      have h1 : vs[i]? = _ := (congrArg (fun j => vs[j]?) e.symm).trans hs.1
      exact congrArg w (Option.some.inj (hi.symm.trans h1)).symm
    have hold : ∀ n, (∀ k, vn < k → k ≤ vn1 → n ≠ newVar k) → ρ' n = ρ n := by
      intro n hn
      refine dif_neg ?_
      rintro ⟨i, v, hi, e⟩
      have : i < vs.length := (List.getElem?_eq_some_iff.1 hi).1
      exact hn _ (by omega) (by omega) e
    have := r.back I ρ' (fun τ hτ => hg τ (fun n hn => by
      rw [hτ n (fun k a b => hn k (by omega) b)]
      exact hold n (fun k a b => hn k a (by omega))))
    refine (holds_congr' f (fun n hn => ?_)).1 this
    by_cases hv : n ∈ vs
    · obtain ⟨i, hi, e⟩ := ok.new n hv
      unfold Aenv
      rw [e]
      exact hnew i n hi
    · rw [hw n hv]
      unfold Aenv
      rw [ok.old n hv]
      cases e : look A n with
      | none =>
        refine hold n (fun k a b e' => ?_)
        subst e'
        exact hf.clo _ ⟨hv, hn⟩ rfl e
      | some t =>
        refine hA.ev (fun _ _ => rfl) (fun k _ => hold _ (fun _ _ _ e => by cases e)) (fun u hu => ?_) e
        obtain ⟨k, hk, rfl⟩ := hA.univs hu
        refine hold _ (fun j a b e => ?_)
        have := newVar_inj e
        have := hV k hk
        omega
  · intro D I ρ
    obtain ⟨J, σ, h2, h3⟩ := r.forth I ρ
    refine ⟨J, σ, h2, fun τ hτ hh => h3 τ hτ ?_⟩
    rw [FInt.holds] at hh
    exact hh _ (fun n hn => by unfold Aenv; rw [ok.old n hn])

/-- an existential quantifier -/
theorem skRes_ex {A A' : Assoc} {V : Nat → Prop} {vn sn sn1 vn' sn' : Nat} {vs : List Nm} {f g : Frm}
    (hA : AOk A V sn) (hf : FOk A sn (.ex vs f))
    (ok : AppendOk (fun k => skTerm k (univs A)) A sn vs A' sn1)
    (r : SkRes A' V vn sn1 f g vn' sn') : SkRes A V vn sn (.ex vs f) g vn' sn' := by
  classical
  have hc := ok.cnt
  have h1 := r.sle
  have hf1 : FOk A' sn f := FOk.quant (q := false) hf ok
  have hf' : FOk A' sn1 f := hf1.mono (by omega)
  refine ⟨r.vle, by omega, r.qf, ?_, ?_, ?_⟩
  · intro m hm
    rcases r.names m hm with h | h | h | h
    · refine .inl ⟨⟨fun hv => ?_, h.1⟩, ?_⟩
      · obtain ⟨i, _, e⟩ := ok.new m hv
        rw [e] at h; simp at h
      · by_cases hv : m ∈ vs
        · obtain ⟨i, _, e⟩ := ok.new m hv
          rw [e] at h; simp at h
        · rw [← ok.old m hv]; exact h.2
    · exact .inr (.inl h)
    · exact .inr (.inr (.inl h))
    · exact .inr (.inr (.inr h))
  · intro D I ρ hg
    rw [FInt.holds]
    exact ⟨_, fun n hn => by unfold Aenv; rw [ok.old n hn], r.back I ρ hg⟩
  · intro D I ρ
    -- witnesses, depending on the values of the universal variables only
    let P : List D → (Nm → D) → Prop := fun ds w => ∃ τ : Nm → D, (∀ n, n.ty ≠ 14 → τ n = ρ n) ∧
      I.evL τ (univs A) = ds ∧ Variant vs (Aenv I τ A) w ∧ I.holds w f
    let W : List D → Nm → D := fun ds => if h : ∃ w, P ds w then Classical.choose h else ρ
    have hW : ∀ ds w, P ds w → P ds (W ds) := by
      intro ds w h
      have h' : ∃ w, P ds w := ⟨w, h⟩
      show P ds (if h : ∃ w, P ds w then Classical.choose h else ρ)
      rw [dif_pos h']
      exact Classical.choose_spec h'
    let val : Nm → List D → Option D := fun n ds =>
      if h : ∃ i v, vs[i]? = some v ∧ n = skName (sn + 1 + i)
      then some (W ds (Classical.choose (Classical.choose_spec h))) else none
    have hval : ∀ i v ds, vs[i]? = some v → val (skName (sn + 1 + i)) ds = some (W ds v) := by
      intro i v ds hi
      have h : ∃ j u, vs[j]? = some u ∧ skName (sn + 1 + i) = skName (sn + 1 + j) := ⟨i, v, hi, rfl⟩
      show (if h : ∃ j u, vs[j]? = some u ∧ skName (sn + 1 + i) = skName (sn + 1 + j)
        then some (W ds (Classical.choose (Classical.choose_spec h))) else none) = some (W ds v)
      rw [dif_pos h]
      have hs := Classical.choose_spec (Classical.choose_spec h)
      have e : Classical.choose h = i := by
        have := skName_inj hs.2; omega
      have h1 : vs[i]? = _ := (congrArg (fun j => vs[j]?) e.symm).trans hs.1
      exact congrArg (fun v => some (W ds v)) (Option.some.inj (hi.symm.trans h1)).symm
    have hnone : ∀ n ds, (∀ k, sn < k → k ≤ sn1 → n ≠ skName k) → val n ds = none := by
      intro n ds hn
      refine dif_neg ?_
      rintro ⟨i, v, hi, e⟩
      have : i < vs.length := (List.getElem?_eq_some_iff.1 hi).1
      exact hn _ (by omega) (by omega) e
    let J1 : FInt D := ⟨fun n ds => (val n ds).getD (I.fn n ds), I.pr⟩
    let σ1 : Nm → D := fun n => (val n []).getD (ρ n)
    have g1 : ∀ n, (∀ k, sn < k → k ≤ sn1 → n ≠ skName k) → J1.fn n = I.fn n ∧ J1.pr n = I.pr n ∧ σ1 n = ρ n := by
      intro n hn
      refine ⟨?_, rfl, ?_⟩
      · funext ds
        show (val n ds).getD (I.fn n ds) = _
        rw [hnone n ds hn]; rfl
      · show (val n []).getD (ρ n) = _
        rw [hnone n [] hn]; rfl
    obtain ⟨J, σ, g2, f2⟩ := r.forth J1 σ1
    have gIJ : ∀ n, (∀ k, sn < k → k ≤ sn' → n ≠ skName k) → J.fn n = I.fn n ∧ J.pr n = I.pr n ∧ σ n = ρ n := by
      intro n hn
      have e1 := g1 n (fun k a b => hn k a (by omega))
      have e2 := g2 n (fun k a b => hn k (by omega) b)
      exact ⟨e2.1.trans e1.1, e2.2.1.trans e1.2.1, e2.2.2.trans e1.2.2⟩
    refine ⟨J, σ, gIJ, fun τ hτ hh => f2 τ hτ ?_⟩
    -- back to the first interpretation
    let τ0 : Nm → D := fun n => if n.ty = 14 then τ n else ρ n
    have ag : AgreeTo sn I J τ0 τ := fun n hn => by
      have := gIJ n (fun k a _ => hn k a)
      refine ⟨this.1.symm, this.2.1.symm, ?_⟩
      show (if n.ty = 14 then τ n else ρ n) = τ n
      split
      · rfl
      · rename_i ht
        rw [hτ n ht, this.2.2]
    have h0 : I.holds (Aenv I τ0 A) (.ex vs f) := (agree_f hA hf ag).2 hh
    rw [FInt.holds] at h0
    obtain ⟨w0, hv0, hw0⟩ := h0
    have hds : J.evL τ (univs A) = I.evL τ0 (univs A) := by
      rw [evL_map, evL_map]
      refine List.map_congr_left (fun u hu => ?_)
      obtain ⟨k, _, rfl⟩ := hA.univs hu
      exact ((ag (newVar k) (fun j _ e => by cases e)).2.2).symm
    obtain ⟨τ', ht', he', hv', hw'⟩ := hW (I.evL τ0 (univs A)) w0 ⟨τ0, fun n hn => if_neg hn, rfl, hv0, hw0⟩
    -- the value of a quantified variable is its witness
    have key : ∀ i v, vs[i]? = some v → skval J τ (sn + 1 + i) (J.evL τ (univs A)) = W (I.evL τ0 (univs A)) v := by
      intro i v hi
      have hl : i < vs.length := (List.getElem?_eq_some_iff.1 hi).1
      have e2 := g2 (skName (sn + 1 + i)) (fun k a b e => by have := skName_inj e; omega)
      rw [hds]
      unfold skval
      split
      · rename_i he
        rw [List.isEmpty_iff.1 he, hτ _ (by simp [skName_ty]), e2.2.2]
        show (val _ []).getD _ = _
        rw [hval i v [] hi]; rfl
      · rw [e2.1]
        show (val _ _).getD _ = _
        rw [hval i v _ hi]; rfl
    refine (holds_congr f (I := I) (J := J) (fun n hn => ?_) (fun n hn => ?_)).1 hw'
    · by_cases hv : n ∈ vs
      · obtain ⟨i, hi, e⟩ := ok.new n hv
        unfold Aenv
        rw [e]
        show _ = J.ev τ (skTerm _ _)
        rw [ev_skTerm, key i n hi]
      · rw [hv' n hv]
        unfold Aenv
        rw [ok.old n hv]
        cases e : look A n with
        | none =>
          have hty : n.ty ≠ 14 := fun ht => hf.clo n ⟨hv, hn⟩ ht e
          show τ' n = τ n
          rw [ht' n hty, hτ n hty]
          exact ((gIJ n (fun k a _ => hf1.sk n k (.inl hn) a)).2.2).symm
        | some t =>
          refine hA.ev (fun k hk => ?_) (fun k hk => ?_) (fun u hu => ?_) e
          · exact ((gIJ _ (fun j a _ e => by have := skName_inj e; omega)).1).symm
          · rw [ht' _ (by simp [skName_ty]), hτ _ (by simp [skName_ty])]
            exact ((gIJ _ (fun j a _ e => by have := skName_inj e; omega)).2.2).symm
          · rw [← hds, evL_map, evL_map] at he'
            exact List.map_inj_left.1 he' u hu
    · have := gIJ n (fun k a _ => hf1.sk n k (head_name hn) a)
      exact ⟨this.1.symm, this.2.1.symm⟩

theorem skol_res {f : Frm} (hf : Nnf2 f) : ∀ (A : Assoc) (V : Nat → Prop) (vn sn : Nat) (g : Frm) (vn' sn' : Nat),
    (∀ k, V k → k ≤ vn) → AOk A V sn → FOk A sn f → skol A vn sn f = some (g, vn', sn') →
    SkRes A V vn sn f g vn' sn' := by
  induction hf with
  | «at» t =>
    intro A V vn sn g vn' sn' hV hA hf h
    have : ∃ t', repl A t = some t' ∧ g = .at t' ∧ vn' = vn ∧ sn' = sn := by
      cases t with
      | nm n =>
        simp only [skol, Option.some.injEq, Prod.mk.injEq] at h
        obtain ⟨rfl, rfl, rfl⟩ := h
        have := (hf.hd n (by simp [headIn, headsA])).1
        exact ⟨.nm n, by simp [repl, this], rfl, rfl, rfl⟩
      | app p as =>
        simp only [skol] at h
        obtain ⟨t', e, h⟩ := Option.map_eq_some_iff.1 h
        simp only [Prod.mk.injEq] at h
        obtain ⟨rfl, rfl, rfl⟩ := h
        exact ⟨t', e, rfl, rfl, rfl⟩
    obtain ⟨t', e, rfl, rfl, rfl⟩ := this
    exact skRes_lit hA true hf e
  | neg t =>
    intro A V vn sn g vn' sn' hV hA hf h
    simp only [skol] at h
    obtain ⟨t', e, h⟩ := Option.map_eq_some_iff.1 h
    simp only [Prod.mk.injEq] at h
    obtain ⟨rfl, rfl, rfl⟩ := h
    exact skRes_lit hA false hf e
  | @and a b ha hb iha ihb =>
    intro A V vn sn g vn' sn' hV hA hf h
    simp only [skol] at h
    obtain ⟨⟨ga, vn1, sn1⟩, e1, h⟩ := Option.bind_eq_some_iff.1 h
    obtain ⟨⟨gb, vn2, sn2⟩, e2, h⟩ := Option.map_eq_some_iff.1 h
    simp only [Prod.mk.injEq] at h
    obtain ⟨rfl, rfl, rfl⟩ := h
    have fab := FOk.sub2 (c := true) hf
    have ra := iha A V vn sn ga vn1 sn1 hV hA fab.1 e1
    have rb := ihb A V vn1 sn1 gb vn2 sn2 (fun k hk => Nat.le_trans (hV k hk) ra.vle) (hA.mono ra.sle)
      (fab.2.mono ra.sle) e2
    exact skRes_junct (c := true) hV hA hf ra rb
  | @or a b ha hb iha ihb =>
    intro A V vn sn g vn' sn' hV hA hf h
    simp only [skol] at h
    obtain ⟨⟨ga, vn1, sn1⟩, e1, h⟩ := Option.bind_eq_some_iff.1 h
    obtain ⟨⟨gb, vn2, sn2⟩, e2, h⟩ := Option.map_eq_some_iff.1 h
    simp only [Prod.mk.injEq] at h
    obtain ⟨rfl, rfl, rfl⟩ := h
    have fab := FOk.sub2 (c := false) hf
    have ra := iha A V vn sn ga vn1 sn1 hV hA fab.1 e1
    have rb := ihb A V vn1 sn1 gb vn2 sn2 (fun k hk => Nat.le_trans (hV k hk) ra.vle) (hA.mono ra.sle)
      (fab.2.mono ra.sle) e2
    exact skRes_junct (c := false) hV hA hf ra rb
  | all vs hf' ih =>
    intro A V vn sn g vn' sn' hV hA hf h
    simp only [skol] at h
    obtain ⟨⟨A', vn1⟩, e1, h⟩ := Option.bind_eq_some_iff.1 h
    rw [appendAll_eq] at e1
    have ok := appendG_ok _ _ _ _ _ _ e1
    have hc := ok.cnt
    exact skRes_all hV hA hf ok (ih A' _ vn1 sn g vn' sn' (fun k hk => hk.elim (fun h => by have := hV k h; omega)
      (fun h => h.2)) (hA.all ok) (FOk.quant (q := true) hf ok) h)
  | ex vs hf' ih =>
    intro A V vn sn g vn' sn' hV hA hf h
    simp only [skol] at h
    obtain ⟨⟨A', sn1⟩, e1, h⟩ := Option.bind_eq_some_iff.1 h
    rw [appendEx_eq] at e1
    have ok := appendG_ok _ _ _ _ _ _ e1
    have hc := ok.cnt
    exact skRes_ex hA hf ok (ih A' V vn sn1 g vn' sn' hV (hA.ex ok)
      ((FOk.quant (q := false) hf ok).mono (by omega)) h)


/-- what Skolemisation relies on: free names are not variables, a name with arguments (or a
propositional symbol) is not quantified, and Skolem names from `sn` on are not used -/
structure SkInput (sn : Nat) (f : Frm) : Prop where
  closed : ∀ n, freeIn n f → n.ty ≠ 14
  heads : ∀ n, headIn n f → ¬ boundIn n f
  fresh : ∀ n k, nameIn n f → sn < k → n ≠ skName k

theorem look_nil (n : Nm) : look [] n = none := by simp [look]

theorem SkInput.fok {sn : Nat} {f : Frm} (h : SkInput sn f) : FOk [] sn f :=
  ⟨fun n hn ht => absurd ht (h.closed n hn), fun n hn => ⟨look_nil n, h.heads n hn⟩, h.fresh⟩

theorem aok_nil (V : Nat → Prop) (sn : Nat) : AOk [] V sn := ⟨fun _ _ h => by cases h⟩

theorem Aenv_nil {D : Type} (I : FInt D) (ρ : Nm → D) : Aenv I ρ [] = ρ := by
  funext n; simp [Aenv, look_nil]

/-- C28 (partial: Skolem names must be unused).  The result is quantifier free.  If it is true for
all values of variables, then so is the formula; if the formula is true, then the result becomes
true for all values of variables by a new meaning of the Skolem symbols alone. -/
theorem C28_skolem_equisatisfiable_partial {f g : Frm} {vn sn vn' sn' : Nat} (hf : Nnf2 f) (hi : SkInput sn f)
    (h : skol [] vn sn f = some (g, vn', sn')) :
    QFree g ∧ sn ≤ sn' ∧
    (∀ {D : Type} (I : FInt D) (ρ : Nm → D), (∀ τ : Nm → D, (∀ n, n.ty ≠ 14 → τ n = ρ n) → I.holds τ g) →
      I.holds ρ f) ∧
    ∀ {D : Type} (I : FInt D) (ρ : Nm → D), I.holds ρ f → ∃ (J : FInt D) (σ : Nm → D),
      (∀ n, (∀ k, sn < k → k ≤ sn' → n ≠ skName k) → J.fn n = I.fn n ∧ J.pr n = I.pr n ∧ σ n = ρ n) ∧
      ∀ τ : Nm → D, (∀ n, n.ty ≠ 14 → τ n = σ n) → J.holds τ g := by
  have r := skol_res hf [] (fun _ => False) vn sn g vn' sn' (fun _ h => h.elim) (aok_nil _ _) hi.fok h
  refine ⟨r.qf, r.sle, fun {D} I ρ hg => ?_, fun {D} I ρ hh => ?_⟩
  · rw [← Aenv_nil I ρ]
    refine r.back I ρ (fun τ hτ => hg τ (fun n hn => hτ n (fun k _ _ e => hn ?_)))
    rw [e]; rfl
  · obtain ⟨J, σ, h1, h2⟩ := r.forth I ρ
    refine ⟨J, σ, h1, fun τ hτ => h2 τ hτ ?_⟩
    rw [Aenv_nil]
    refine (holds_congr f (fun n hn => ?_) (fun n hn => ?_)).1 hh
    · rw [hτ n (hi.closed n hn)]
      exact ((h1 n (fun k a _ => hi.fresh n k (.inl hn) a)).2.2).symm
    · have := h1 n (fun k a _ => hi.fresh n k (head_name hn) a)
      exact ⟨this.1.symm, this.2.1.symm⟩

/-- C28: what names the result may contain -/
theorem C28_skolem_names {f g : Frm} {vn sn vn' sn' : Nat} (hf : Nnf2 f) (hi : SkInput sn f)
    (h : skol [] vn sn f = some (g, vn', sn')) {m : Nm} (hm : freeIn m g) :
    (freeIn m f ∧ m.ty ≠ 14) ∨ (∃ k, m = newVar k ∧ vn < k ∧ k ≤ vn') ∨ ∃ k, m = skName k ∧ k ≤ sn' := by
  have r := skol_res hf [] (fun _ => False) vn sn g vn' sn' (fun _ h => h.elim) (aok_nil _ _) hi.fok h
  rcases r.names m hm with h | h | ⟨k, e, h⟩ | h
  · exact .inl ⟨h.1, hi.closed m h.1⟩
  · have := (head_name h).resolve_right (hi.heads m h)
    exact .inl ⟨this, hi.closed m this⟩
  · exact .inr (.inl ⟨k, e, h.resolve_left id⟩)
  · exact .inr (.inr h)

theorem appendG_total (mk : Nat → FT) : ∀ (vs : List Nm) (A : Assoc) (k : Nat), (∀ v ∈ vs, okVar v = true) →
    ∃ r, appendG mk A k vs = some r
  | [], A, k, _ => ⟨_, rfl⟩
  | v :: vs, A, k, h => by
    simp only [appendG, h v (by simp), if_true]
    exact appendG_total mk vs _ _ (fun u hu => h u (by simp [hu]))

theorem skol_total {f : Frm} (hf : Nnf2 f) : ∀ (A : Assoc) (vn sn : Nat), (∀ n, boundIn n f → okVar n = true) →
    (∀ n, headIn n f → look A n = none ∧ ¬ boundIn n f) → ∃ r, skol A vn sn f = some r := by
  induction hf with
  | «at» t =>
    intro A vn sn _ hd
    cases t with
    | nm n => exact ⟨_, rfl⟩
    | app p as =>
      obtain ⟨as', e, _⟩ := replL_ok (D := Unit) (A := A) as (fun n hn => (hd n (by simp [headIn, headsA, hn])).1)
      exact ⟨_, by simp only [skol, repl, (hd p (by simp [headIn, headsA])).1, e, Option.map_some]; rfl⟩
  | neg t =>
    intro A vn sn _ hd
    cases t with
    | nm n => exact ⟨_, by simp only [skol, repl, Option.map_some]; rfl⟩
    | app p as =>
      obtain ⟨as', e, _⟩ := replL_ok (D := Unit) (A := A) as (fun n hn => (hd n (by simp [headIn, headsA, hn])).1)
      exact ⟨_, by simp only [skol, repl, (hd p (by simp [headIn, headsA])).1, e, Option.map_some]; rfl⟩
  | @and a b _ _ iha ihb =>
    intro A vn sn hb hd
    obtain ⟨⟨ga, vn1, sn1⟩, e1⟩ := iha A vn sn (fun n h => hb n (by simp [boundIn, boundInL, h])) (fun n h => by
      have := hd n (by simp [headIn, headInL, h])
      simp only [boundIn, boundInL, or_false, not_or] at this
      exact ⟨this.1, this.2.1⟩)
    obtain ⟨⟨gb, vn2, sn2⟩, e2⟩ := ihb A vn1 sn1 (fun n h => hb n (by simp [boundIn, boundInL, h])) (fun n h => by
      have := hd n (by simp [headIn, headInL, h])
      simp only [boundIn, boundInL, or_false, not_or] at this
      exact ⟨this.1, this.2.2⟩)
    exact ⟨_, by simp only [skol, e1, e2, Option.bind_some, Option.map_some]; rfl⟩
  | @or a b _ _ iha ihb =>
    intro A vn sn hb hd
    obtain ⟨⟨ga, vn1, sn1⟩, e1⟩ := iha A vn sn (fun n h => hb n (by simp [boundIn, boundInL, h])) (fun n h => by
      have := hd n (by simp [headIn, headInL, h])
      simp only [boundIn, boundInL, or_false, not_or] at this
      exact ⟨this.1, this.2.1⟩)
    obtain ⟨⟨gb, vn2, sn2⟩, e2⟩ := ihb A vn1 sn1 (fun n h => hb n (by simp [boundIn, boundInL, h])) (fun n h => by
      have := hd n (by simp [headIn, headInL, h])
      simp only [boundIn, boundInL, or_false, not_or] at this
      exact ⟨this.1, this.2.2⟩)
    exact ⟨_, by simp only [skol, e1, e2, Option.bind_some, Option.map_some]; rfl⟩
  | all vs _ ih =>
    intro A vn sn hb hd
    obtain ⟨⟨A', vn1⟩, e⟩ := appendG_total (fun k => .nm (newVar k)) vs A vn (fun v hv => hb v (by simp [boundIn, hv]))
    have ok := appendG_ok _ _ _ _ _ _ e
    obtain ⟨r, e2⟩ := ih A' vn1 sn (fun n h => hb n (by simp [boundIn, h])) (fun n h => by
      have := hd n (by simpa [headIn] using h)
      simp only [boundIn, not_or] at this
      exact ⟨by rw [ok.old n this.2.1]; exact this.1, this.2.2⟩)
    exact ⟨r, by simp only [skol, appendAll_eq, e, Option.bind_some]; exact e2⟩
  | ex vs _ ih =>
    intro A vn sn hb hd
    obtain ⟨⟨A', sn1⟩, e⟩ := appendG_total (fun k => skTerm k (univs A)) vs A sn (fun v hv => hb v (by simp [boundIn, hv]))
    have ok := appendG_ok _ _ _ _ _ _ e
    obtain ⟨r, e2⟩ := ih A' vn sn1 (fun n h => hb n (by simp [boundIn, h])) (fun n h => by
      have := hd n (by simpa [headIn] using h)
      simp only [boundIn, not_or] at this
      exact ⟨by rw [ok.old n this.2.1]; exact this.1, this.2.2⟩)
    exact ⟨r, by simp only [skol, appendEx_eq, e, Option.bind_some]; exact e2⟩

/-- C28: no formula whose quantified names are variables or plain names, not used as function or
predicate symbols, is refused -/
theorem C28_skolem_accepts {f : Frm} (vn sn : Nat) (hf : Nnf2 f) (hb : ∀ n, boundIn n f → okVar n = true)
    (hd : ∀ n, headIn n f → ¬ boundIn n f) : ∃ g vn' sn', skol [] vn sn f = some (g, vn', sn') := by
  obtain ⟨⟨g, vn', sn'⟩, h⟩ := skol_total hf [] vn sn hb (fun n hn => ⟨look_nil n, hd n hn⟩)
  exact ⟨g, vn', sn', h⟩

/-- all X: (exists Y: p(X,Y)) and not p(X,X) -/
def exSk : Frm := .all [uri "X"] (.and [.ex [uri "Y"] (.at (.app (uri "p") [.nm (uri "X"), .nm (uri "Y")])),
  .neg (.at (.app (uri "p") [.nm (uri "X"), .nm (uri "X")]))])

example : Nnf2 exSk ∧ SkInput 0 exSk ∧ (∀ n, boundIn n exSk → okVar n = true) ∧
    skol [] 0 0 exSk = some (.and [.at (.app (uri "p") [.nm (newVar 1), .app (skName 1) [.nm (newVar 1)]]),
      .neg (.at (.app (uri "p") [.nm (newVar 1), .nm (newVar 1)]))], 1, 1) := by
  refine ⟨.all _ (.and (.ex _ (.at _)) (.neg _)), ⟨fun n h => ?_, fun n h => ?_, fun n k h _ => ?_⟩, fun n h => ?_, ?_⟩
  · simp [exSk, freeIn, freeInL, namesT, namesTL] at h
    obtain ⟨h1, ⟨h2, rfl | rfl | rfl⟩ | rfl | rfl⟩ := h <;> simp_all [uri]
  · simp [exSk, headIn, headInL, headsA, headsT, headsTL] at h
    subst h
    simp [exSk, boundIn, boundInL, uri]
  · intro e
    have : n.str = "p" ∨ n.str = "X" ∨ n.str = "Y" := by
      simp [nameIn, exSk, freeIn, freeInL, boundIn, boundInL, namesT, namesTL] at h
      rcases h with ⟨_, ⟨_, h | h | h⟩ | h | h⟩ | h | h <;> subst h <;> simp [uri]
    have e1 : n.str.toList.head? = some '$' := by rw [e]; simp [skName, uri]
    rcases this with h | h | h <;> rw [h] at e1 <;> simp at e1
  · simp [exSk, boundIn, boundInL] at h
    rcases h with rfl | rfl <;> rfl
  · have h1 : uri "p" ≠ uri "X" := by decide
    have h2 : uri "Y" ≠ uri "X" := by decide
    have h3 : uri "p" ≠ uri "Y" := by decide
    simp [exSk, skol, appendAll, appendEx, okVar, repl, replL, look, univs, skTerm, uri, newVar, varN]

/-- C28, what is missing: `$sk1` may be written by the user (the lexer accepts it), and then meets the
first Skolem constant: (exists X: p(X)) and not p($sk1) is true in some interpretation, its result in
none. -/
theorem C28_user_skolem_name_unsound : ∃ (f g : Frm) (vn' sn' : Nat), Nnf2 f ∧
    skol [] 0 0 f = some (g, vn', sn') ∧ (∃ (I : FInt Bool) (ρ : Nm → Bool), I.holds ρ f) ∧
    ∀ {D : Type} (J : FInt D) (σ : Nm → D), ¬ J.holds σ g := by
  refine ⟨.and [.ex [uri "X"] (.at (.app (uri "p") [.nm (uri "X")])), .neg (.at (.app (uri "p") [.nm (uri "$sk1")]))],
    .and [.at (.app (uri "p") [.nm (uri "$sk1")]), .neg (.at (.app (uri "p") [.nm (uri "$sk1")]))], 0, 1,
    .and (.ex _ (.at _)) (.neg _), ?_, ⟨⟨fun _ _ => true, fun _ ds => ds = [true]⟩, fun _ => false, ?_⟩, ?_⟩
  · have : skName 1 = uri "$sk1" := by decide
    simp [skol, appendEx, okVar, repl, replL, look, univs, skTerm, uri]
    rfl
  · simp only [FInt.holds, FInt.holdsAll, FInt.atom, FInt.evL, FInt.ev]
    refine ⟨⟨fun n => n = uri "X", fun n hn => ?_, by simp⟩, by simp, trivial⟩
    simp only [List.mem_singleton] at hn
    simp [hn]
  · intro D J σ
    simp only [FInt.holds, FInt.holdsAll]
    exact fun h => h.2.1 h.1

end Gkc.Props
