import Verif.Distribute
import Verif.Props.Skolem
/-
Lemmas for C29: distribution with definitions.
-/
namespace Gkc.Props
open Gkc.Clausify

theorem dfName_inj {a b : Nat} (h : dfName a = dfName b) : a = b := by
  simp only [dfName, uri, Nm.mk.injEq, true_and, String.append_right_inj] at h
  exact toString_nat_inj h

/-! ### Clauses -/

/-- an atom or a negated atom -/
inductive Lit : Frm → Prop
  | at (t : FT) : Lit (.at t)
  | neg (t : FT) : Lit (.neg (.at t))

/-- an or-tree of literals -/
inductive Cls : Frm → Prop
  | lit {f : Frm} : Lit f → Cls f
  | or {a b : Frm} : Cls a → Cls b → Cls (.or [a, b])

/-- an and-tree of clauses -/
inductive Cnf : Frm → Prop
  | cls {f : Frm} : Cls f → Cnf f
  | and {a b : Frm} : Cnf a → Cnf b → Cnf (.and [a, b])

theorem Lit.qf {f : Frm} (h : Lit f) : QFree f := by
  cases h with
  | «at» t => exact .at t
  | neg t => exact .neg t
theorem Cls.qf {f : Frm} (h : Cls f) : QFree f := by
  induction h with
  | lit h => exact h.qf
  | or _ _ ha hb => exact .or ha hb
theorem Cnf.qf {f : Frm} (h : Cnf f) : QFree f := by
  induction h with
  | cls h => exact h.qf
  | and _ _ ha hb => exact .and ha hb

theorem Cls.noAnd {f : Frm} (h : Cls f) : andArgs f = none := by
  cases h with
  | lit h => cases h <;> rfl
  | or _ _ => rfl

theorem Cnf.cls_of {f : Frm} (h : Cnf f) (ha : andArgs f = none) : Cls f := by
  cases h with
  | cls h => exact h
  | and _ _ => cases ha

theorem Cnf.args {f a b : Frm} (h : Cnf f) (ha : andArgs f = some (a, b)) : f = .and [a, b] ∧ Cnf a ∧ Cnf b := by
  cases h with
  | cls h => rw [h.noAnd] at ha; cases ha
  | and h1 h2 =>
    simp only [andArgs, Option.some.injEq, Prod.mk.injEq] at ha
    obtain ⟨rfl, rfl⟩ := ha
    exact ⟨rfl, h1, h2⟩

/-! ### Collected variables -/

mutual
theorem mem_collT {m : Nm} : ∀ (t : FT) (acc : List Nm), m ∈ collT acc t ↔ m ∈ acc ∨ m.ty = 14 ∧ m ∈ namesT t
  | .nm n, acc => by
    simp only [collT, namesT, List.mem_singleton]
    split
    · rename_i h
      split
      · rename_i hm
        exact ⟨.inl, fun h => h.elim id (fun ⟨_, e⟩ => e ▸ hm)⟩
      · rw [List.mem_cons]
        constructor
        · rintro (rfl | h')
          · exact .inr ⟨h, rfl⟩
          · exact .inl h'
        · rintro (h' | ⟨_, rfl⟩)
          · exact .inr h'
          · exact .inl rfl
    · rename_i h
      exact ⟨.inl, fun h' => h'.elim id (fun ⟨a, e⟩ => absurd (e ▸ a) h)⟩
  | .app f as, acc => by
    simp only [collT, namesT, List.mem_cons]
    rw [mem_collTL as]
    split
    · rename_i h
      split
      · rename_i hm
        constructor
        · rintro (h' | ⟨a, h'⟩)
          · exact .inl h'
          · exact .inr ⟨a, .inr h'⟩
        · rintro (h' | ⟨a, rfl | h'⟩)
          · exact .inl h'
          · exact .inl hm
          · exact .inr ⟨a, h'⟩
      · rw [List.mem_cons]
        constructor
        · rintro ((rfl | h') | ⟨a, h'⟩)
          · exact .inr ⟨h, .inl rfl⟩
          · exact .inl h'
          · exact .inr ⟨a, .inr h'⟩
        · rintro (h' | ⟨a, rfl | h'⟩)
          · exact .inl (.inr h')
          · exact .inl (.inl rfl)
          · exact .inr ⟨a, h'⟩
    · rename_i h
      constructor
      · rintro (h' | ⟨a, h'⟩)
        · exact .inl h'
        · exact .inr ⟨a, .inr h'⟩
      · rintro (h' | ⟨a, rfl | h'⟩)
        · exact .inl h'
        · exact absurd a h
        · exact .inr ⟨a, h'⟩
theorem mem_collTL {m : Nm} : ∀ (ts : List FT) (acc : List Nm),
    m ∈ collTL acc ts ↔ m ∈ acc ∨ m.ty = 14 ∧ m ∈ namesTL ts
  | [], acc => by simp [collTL, namesTL]
  | a :: as, acc => by
    simp only [collTL, namesTL, List.mem_append]
    rw [mem_collTL as, mem_collT a, or_assoc, ← and_or_left]
end

theorem mem_coll {m : Nm} {f : Frm} (hf : QFree f) : ∀ acc : List Nm, m ∈ coll acc f ↔ m ∈ acc ∨ m.ty = 14 ∧ freeIn m f := by
  induction hf with
  | «at» t => exact mem_collT t
  | neg t => exact mem_collT t
  | and _ _ ha hb =>
    intro acc
    simp only [coll, collL, freeIn, freeInL, or_false]
    rw [hb, ha, or_assoc, ← and_or_left]
  | or _ _ ha hb =>
    intro acc
    simp only [coll, collL, freeIn, freeInL, or_false]
    rw [hb, ha, or_assoc, ← and_or_left]

/-! ### Negation of quantifier-free formulas -/

theorem negpush_qf {f : Frm} (hf : QFree f) : ∃ g, negpush false f = some g ∧ QFree g ∧ (∀ m, freeIn m g ↔ freeIn m f) ∧
    ∀ {D : Type} (I : FInt D) (ρ : Nm → D), I.holds ρ g ↔ ¬ I.holds ρ f := by
  induction hf with
  | «at» t => exact ⟨_, rfl, .neg t, fun m => Iff.rfl, fun I ρ => Iff.rfl⟩
  | neg t =>
    refine ⟨.at t, by simp [negpush], .at t, fun m => Iff.rfl, fun I ρ => ?_⟩
    simp only [FInt.holds, Classical.not_not]
  | and _ _ ha hb =>
    obtain ⟨ga, e1, q1, n1, s1⟩ := ha
    obtain ⟨gb, e2, q2, n2, s2⟩ := hb
    refine ⟨.or [gb, ga], by simp [negpush, negpushL, e1, e2, junct], .or q2 q1, fun m => ?_, fun I ρ => ?_⟩
    · simp only [freeIn, freeInL, or_false, n1, n2]; exact or_comm
    · rw [holds_or2, holds_and2, s1, s2]
      exact ⟨fun h h' => h.elim (fun h => h h'.2) (fun h => h h'.1), fun h =>
        (Classical.em (I.holds ρ _)).elim (fun ha => .inl (fun hb => h ⟨ha, hb⟩)) .inr⟩
  | or _ _ ha hb =>
    obtain ⟨ga, e1, q1, n1, s1⟩ := ha
    obtain ⟨gb, e2, q2, n2, s2⟩ := hb
    refine ⟨.and [gb, ga], by simp [negpush, negpushL, e1, e2, junct], .and q2 q1, fun m => ?_, fun I ρ => ?_⟩
    · simp only [freeIn, freeInL, or_false, n1, n2]; exact or_comm
    · rw [holds_or2, holds_and2, s1, s2, not_or]
      exact and_comm

/-! ### States -/

/-- equal on everything but variables -/
def SameC {D : Type} (ρ τ : Nm → D) : Prop := ∀ n, n.ty ≠ 14 → τ n = ρ n

/-- the definitions hold for all values of variables -/
def DH {D : Type} (I : FInt D) (ρ : Nm → D) (d : Option Frm) : Prop :=
  ∀ g, d = some g → ∀ τ, SameC ρ τ → I.holds τ g

/-- from the definitions of one state to those of a later one -/
structure Step (s s' : DSt) : Prop where
  nr : s.nr ≤ s'.nr
  back : ∀ {D : Type} (I : FInt D) (ρ : Nm → D), DH I ρ s'.defs → DH I ρ s.defs
  forth : ∀ {D : Type} (I : FInt D) (ρ : Nm → D), DH I ρ s.defs → ∃ P : Nm → List D → Prop,
    (∀ n, (∀ k, s.nr < k → k ≤ s'.nr → n ≠ dfName k) → P n = I.pr n) ∧ DH ⟨I.fn, P⟩ ρ s'.defs

theorem Step.refl (s : DSt) : Step s s :=
  ⟨Nat.le_refl _, fun _ _ h => h, fun I _ h => ⟨I.pr, fun _ _ => rfl, h⟩⟩

theorem Step.trans {s1 s2 s3 : DSt} (h1 : Step s1 s2) (h2 : Step s2 s3) : Step s1 s3 := by
  have a := h1.nr
  have b := h2.nr
  refine ⟨by omega, fun I ρ h => h1.back I ρ (h2.back I ρ h), fun I ρ h => ?_⟩
  obtain ⟨P1, e1, d1⟩ := h1.forth I ρ h
  obtain ⟨P2, e2, d2⟩ := h2.forth ⟨I.fn, P1⟩ ρ d1
  exact ⟨P2, fun n hn => (e2 n (fun k a b => hn k (by omega) b)).trans (e1 n (fun k a b => hn k a (by omega))), d2⟩

/-- equivalent where the definitions hold -/
def EqvUnder (s : DSt) (f g : Frm) : Prop :=
  ∀ (D : Type) (I : FInt D) (ρ : Nm → D), DH I ρ s.defs → ∀ τ, SameC ρ τ → (I.holds τ f ↔ I.holds τ g)

theorem EqvUnder.mono {s s' : DSt} {f g : Frm} (h : EqvUnder s f g) (st : Step s s') : EqvUnder s' f g :=
  fun _ I ρ hd => h _ I ρ (st.back I ρ hd)

/-- names given, or new predicates so far -/
def In (N : Nm → Prop) (nr : Nat) (m : Nm) : Prop := N m ∨ ∃ k, k ≤ nr ∧ m = dfName k

theorem In.mono {N : Nm → Prop} {a b : Nat} {m : Nm} (h : In N a m) (hab : a ≤ b) : In N b m :=
  h.imp id (fun ⟨k, hk, e⟩ => ⟨k, by omega, e⟩)

def FIn (N : Nm → Prop) (nr : Nat) (f : Frm) : Prop := ∀ m, freeIn m f → In N nr m

theorem FIn.mono {N : Nm → Prop} {a b : Nat} {f : Frm} (h : FIn N a f) (hab : a ≤ b) : FIn N b f :=
  fun m hm => (h m hm).mono hab

theorem FIn.and2 {N : Nm → Prop} {nr : Nat} {a b : Frm} : FIn N nr (.and [a, b]) ↔ FIn N nr a ∧ FIn N nr b := by
  constructor
  · exact fun h => ⟨fun m hm => h m (by simp [freeIn, freeInL, hm]), fun m hm => h m (by simp [freeIn, freeInL, hm])⟩
  · intro h m hm
    simp only [freeIn, freeInL, or_false] at hm
    exact hm.elim (h.1 m) (h.2 m)

theorem FIn.or2 {N : Nm → Prop} {nr : Nat} {a b : Frm} : FIn N nr (.or [a, b]) ↔ FIn N nr a ∧ FIn N nr b := by
  constructor
  · exact fun h => ⟨fun m hm => h m (by simp [freeIn, freeInL, hm]), fun m hm => h m (by simp [freeIn, freeInL, hm])⟩
  · intro h m hm
    simp only [freeIn, freeInL, or_false] at hm
    exact hm.elim (h.1 m) (h.2 m)

/-- the definitions are clauses over known names -/
def SIn (N : Nm → Prop) (s : DSt) : Prop := ∀ d, s.defs = some d → Cnf d ∧ FIn N s.nr d

/-- the result of distribution -/
structure DRes (N : Nm → Prop) (f : Frm) (s : DSt) (g : Frm) (s' : DSt) : Prop where
  step : Step s s'
  cnf : Cnf g
  fin : FIn N s'.nr g
  sin : SIn N s'
  eqv : EqvUnder s' f g

/-- a fresh name is not there -/
theorem In.ne {N : Nm → Prop} {nr k : Nat} (hN : ∀ k, N (dfName k) → k ≤ nr) {m : Nm} (h : In N nr m) (hk : nr < k) :
    m ≠ dfName k := by
  rintro rfl
  rcases h with h | ⟨j, hj, e⟩
  · have := hN k h; omega
  · have := dfName_inj e; omega

theorem holds_pr {D : Type} {I : FInt D} {P : Nm → List D → Prop} {f : Frm} (hf : QFree f) {τ : Nm → D}
    (h : ∀ n, freeIn n f → P n = I.pr n) : (⟨I.fn, P⟩ : FInt D).holds τ f ↔ I.holds τ f :=
  holds_congr f (fun _ _ => rfl) (fun n hn => ⟨rfl, h n (hf.head hn)⟩)

theorem DH_addDef {D : Type} {I : FInt D} {ρ : Nm → D} {d : Option Frm} {g : Frm} :
    DH I ρ (some (addDef d g)) ↔ DH I ρ d ∧ ∀ τ, SameC ρ τ → I.holds τ g := by
  cases d with
  | none =>
    simp only [DH, addDef]
    constructor
    · exact fun h => ⟨fun g h => by simp at h, h _ rfl⟩
    · rintro ⟨_, h⟩ g e
      cases e
      exact h
  | some d =>
    simp only [DH, addDef]
    constructor
    · intro h
      refine ⟨fun g e τ hτ => ?_, fun τ hτ => ?_⟩
      · cases e
        exact (holds_and2.1 (h _ rfl τ hτ)).1
      · exact (holds_and2.1 (h _ rfl τ hτ)).2
    · rintro ⟨h1, h2⟩ g e τ hτ
      cases e
      exact holds_and2.2 ⟨h1 d rfl τ hτ, h2 τ hτ⟩

/-- truth of a definition atom -/
theorem defAtom_spec {nr : Nat} {f : Frm} {d : FT} (hf : QFree f) (h : defAtom nr f = some d) :
    (∀ {D : Type} (I : FInt D) (τ : Nm → D), I.atom τ d ↔ I.pr (dfName nr) ((coll [] f).map τ)) ∧
    ∀ m, m ∈ namesT d → m = dfName nr ∨ freeIn m f := by
  unfold defAtom at h
  simp only at h
  split at h
  · cases h
  · simp only [Option.some.injEq] at h
    split at h
    · rename_i he
      rw [List.isEmpty_iff.1 he]
      subst h
      exact ⟨fun I τ => by simp [FInt.atom], fun m hm => .inl (by simpa [namesT] using hm)⟩
    · subst h
      refine ⟨fun I τ => ?_, fun m hm => ?_⟩
      · simp only [FInt.atom, evL_map, List.map_map]
        exact Iff.rfl
      · simp only [namesT, List.mem_cons] at hm
        refine hm.imp id (fun hm => ?_)
        have : ∀ vs : List Nm, m ∈ namesTL (vs.map FT.nm) → m ∈ vs := by
          intro vs
          induction vs with
          | nil => simp [namesTL]
          | cons v vs ih =>
            simp only [List.map_cons, namesTL, namesT, List.mem_append, List.mem_cons, List.not_mem_nil, or_false]
            exact fun h => h.imp id ih
        have := (mem_coll hf []).1 (this _ hm)
        simp only [List.not_mem_nil, false_or] at this
        exact this.2

theorem makedef_res {N : Nm → Prop} {Dd : Frm → DSt → Option (Frm × DSt)}
    (ih : ∀ f s g s', QFree f → FIn N s.nr f → SIn N s → (∀ k, N (dfName k) → k ≤ s.nr) → Dd f s = some (g, s') →
      DRes N f s g s') {f g : Frm} {s s' : DSt} (hf : QFree f) (fi : FIn N s.nr f) (si : SIn N s)
    (hN : ∀ k, N (dfName k) → k ≤ s.nr) (h : makedef Dd f s = some (g, s')) :
    (∃ d, g = .at d) ∧ DRes N f s g s' := by
  unfold makedef at h
  obtain ⟨d, ed, h⟩ := Option.bind_eq_some_iff.1 h
  obtain ⟨⟨r1, s1⟩, e1, h⟩ := Option.bind_eq_some_iff.1 h
  obtain ⟨nf, en, h⟩ := Option.bind_eq_some_iff.1 h
  obtain ⟨⟨r2, s2⟩, e2, h⟩ := Option.map_eq_some_iff.1 h
  simp only [Prod.mk.injEq] at h
  obtain ⟨rfl, rfl⟩ := h
  obtain ⟨nf', en', qn, nn, sn⟩ := negpush_qf hf
  rw [en] at en'
  obtain rfl := Option.some.inj en'
  obtain ⟨da, dn⟩ := defAtom_spec hf ed
  have fi1 : FIn N (s.nr + 1) f := fi.mono (Nat.le_succ _)
  have fid : FIn N (s.nr + 1) (.at d) := fun m hm => (dn m hm).elim (fun e => .inr ⟨_, Nat.le_refl _, e⟩) (fi1 m)
  have fidn : FIn N (s.nr + 1) (.neg (.at d)) := fid
  have r1o := ih _ ⟨s.defs, s.nr + 1⟩ _ _ (.or (.neg d) hf) (FIn.or2.2 ⟨fidn, fi1⟩)
    (fun d hd => ⟨(si d hd).1, (si d hd).2.mono (Nat.le_succ _)⟩) (fun k hk => Nat.le_succ_of_le (hN k hk)) e1
  have l1 : s.nr + 1 ≤ s1.nr := r1o.step.nr
  have r2o := ih _ s1 _ _ (.or (.at d) qn) (FIn.or2.2 ⟨fid.mono l1, fun m hm => (fi1 m ((nn m).1 hm)).mono l1⟩)
    r1o.sin (fun k hk => by have := hN k hk; omega) e2
  have l2 := r2o.step.nr
  -- the definition holds exactly where the atom is equivalent to the formula
  have key : ∀ {D : Type} (I : FInt D) (ρ : Nm → D), DH I ρ s2.defs → ∀ τ, SameC ρ τ →
      (I.holds τ (.and [r1, r2]) ↔ (I.holds τ (.at d) ↔ I.holds τ f)) := by
    intro D I ρ hd τ hτ
    rw [holds_and2, ← r2o.eqv _ I ρ hd τ hτ, ← (r1o.eqv.mono r2o.step) _ I ρ hd τ hτ, holds_or2, holds_or2, sn,
      show I.holds τ (.neg (.at d)) ↔ ¬ I.holds τ (.at d) from Iff.rfl]
    constructor
    · rintro ⟨h1, h2⟩
      exact ⟨fun h => h1.resolve_left (fun h' => h' h), fun h => h2.resolve_right (fun h' => h' h)⟩
    · intro h
      refine ⟨?_, ?_⟩
      · by_cases ha : I.holds τ (.at d)
        · exact .inr (h.1 ha)
        · exact .inl ha
      · by_cases ha : I.holds τ f
        · exact .inl (h.2 ha)
        · exact .inr ha
  refine ⟨⟨d, rfl⟩, ⟨⟨by show s.nr ≤ s2.nr; omega, fun I ρ hd => ?_, fun {D} I ρ hd => ?_⟩, .cls (.lit (.at d)), ?_, ?_, ?_⟩⟩
  · exact r1o.step.back I ρ (r2o.step.back I ρ (DH_addDef.1 hd).1)
  · -- give the new predicate its meaning
    let P0 : Nm → List D → Prop := fun n ds => if n = dfName (s.nr + 1)
      then ∃ τ, SameC ρ τ ∧ (coll [] f).map τ = ds ∧ I.holds τ f else I.pr n ds
    have e0 : ∀ n, n ≠ dfName (s.nr + 1) → P0 n = I.pr n := fun n hn => by
      funext ds
      simp only [P0, if_neg hn]
    have h0 : ∀ g, QFree g → FIn N s.nr g → ∀ τ, ((⟨I.fn, P0⟩ : FInt D).holds τ g ↔ I.holds τ g) := fun g qg fg τ =>
      holds_pr qg (fun n hn => e0 n ((fg n hn).ne hN (Nat.lt_succ_self _)))
    have d0 : DH (⟨I.fn, P0⟩ : FInt D) ρ s.defs := fun g e τ hτ => (h0 g (si g e).1.qf (si g e).2 τ).2 (hd g e τ hτ)
    obtain ⟨P1, a1, d1⟩ := r1o.step.forth ⟨I.fn, P0⟩ ρ d0
    obtain ⟨P2, a2, d2⟩ := r2o.step.forth ⟨I.fn, P1⟩ ρ d1
    have a2' : ∀ n, In N (s.nr + 1) n → P2 n = P0 n := fun n hn => by
      have hN' : ∀ k, N (dfName k) → k ≤ s.nr + 1 := fun k hk => Nat.le_succ_of_le (hN k hk)
      have b1 := a1 n (fun k a _ => hn.ne hN' a)
      have b2 := a2 n (fun k a _ => hn.ne hN' (by have : s1.nr < k := a; omega))
      exact b2.trans b1
    refine ⟨P2, fun n hn => ?_, DH_addDef.2 ⟨d2, fun τ hτ => (key _ ρ d2 τ hτ).2 ?_⟩⟩
    · have b1 := a1 n (fun k a b => hn k (by have : s.nr + 1 < k := a; omega) (by show k ≤ s2.nr; omega))
      have b2 := a2 n (fun k a b => hn k (by omega) b)
      exact (b2.trans b1).trans (e0 n (hn _ (Nat.lt_succ_self _) (by show s.nr + 1 ≤ s2.nr; omega)))
    · have t1 : (⟨I.fn, P2⟩ : FInt D).holds τ f ↔ I.holds τ f :=
        (holds_congr f (I := ⟨I.fn, P2⟩) (J := ⟨I.fn, P0⟩) (fun _ _ => rfl) (fun n hn => ⟨rfl, a2' n (fi1 n (hf.head hn))⟩)).trans
          (h0 f hf fi τ)
      rw [t1]
      simp only [FInt.holds]
      rw [da]
      show P2 (dfName (s.nr + 1)) _ ↔ _
      rw [a2' _ (.inr ⟨_, Nat.le_refl _, rfl⟩)]
      simp only [P0, if_true]
      constructor
      · rintro ⟨τ', hs, em, hh⟩
        refine (holds_congr' f (fun n hn => ?_)).1 hh
        by_cases ht : n.ty = 14
        · exact List.map_inj_left.1 em n ((mem_coll hf []).2 (.inr ⟨ht, hn⟩))
        · rw [hs n ht, hτ n ht]
      · exact fun hh => ⟨τ, hτ, rfl, hh⟩
  · show FIn N s2.nr (.at d)
    exact fid.mono (by omega)
  · intro d' e
    simp only [Option.some.injEq] at e
    have c : Cnf (.and [r1, r2]) ∧ FIn N s2.nr (.and [r1, r2]) :=
      ⟨.and r1o.cnf r2o.cnf, FIn.and2.2 ⟨r1o.fin.mono l2, r2o.fin⟩⟩
    cases hs : s2.defs with
    | none => rw [hs] at e; subst e; exact c
    | some dd =>
      rw [hs] at e; subst e
      exact ⟨.and (r2o.sin dd hs).1 c.1, FIn.and2.2 ⟨(r2o.sin dd hs).2, c.2⟩⟩
  · intro D I ρ hd τ hτ
    have := DH_addDef.1 hd
    exact ((key I ρ this.1 τ hτ).1 (this.2 τ hτ)).symm

theorem EqvUnder.rfl' (s : DSt) (f : Frm) : EqvUnder s f f := fun _ _ _ _ _ _ => Iff.rfl

theorem or_four {a b c d : Prop} : (a ∧ b) ∨ (c ∧ d) ↔ (a ∨ c) ∧ (a ∨ d) ∧ (b ∨ c) ∧ (b ∨ d) := by
  constructor
  · rintro (⟨ha, hb⟩ | ⟨hc, hd⟩)
    · exact ⟨.inl ha, .inl ha, .inl hb, .inl hb⟩
    · exact ⟨.inr hc, .inr hd, .inr hc, .inr hd⟩
  · rintro ⟨h1, h2, h3, h4⟩
    by_cases hc : c
    · by_cases hd : d
      · exact .inr ⟨hc, hd⟩
      · exact .inl ⟨h2.resolve_right hd, h4.resolve_right hd⟩
    · exact .inl ⟨h1.resolve_right hc, h3.resolve_right hc⟩

theorem dist_res (N : Nm → Prop) (strat : Bool) : ∀ (n : Nat) (indef : Bool) (f : Frm) (s : DSt) (g : Frm) (s' : DSt), QFree f →
    FIn N s.nr f → SIn N s → (∀ k, N (dfName k) → k ≤ s.nr) → dist strat n indef f s = some (g, s') → DRes N f s g s' := by
  intro n
  induction n with
  | zero => intro indef f s g s' _ _ _ _ h; simp [dist] at h
  | succ n ih =>
    intro indef f s g s' hf fi si hN h
    cases hf with
    | «at» t =>
      simp only [dist, Option.some.injEq, Prod.mk.injEq] at h
      obtain ⟨rfl, rfl⟩ := h
      exact ⟨.refl _, .cls (.lit (.at t)), fi, si, EqvUnder.rfl' _ _⟩
    | neg t =>
      simp only [dist, Option.some.injEq, Prod.mk.injEq] at h
      obtain ⟨rfl, rfl⟩ := h
      exact ⟨.refl _, .cls (.lit (.neg t)), fi, si, EqvUnder.rfl' _ _⟩
    | @and a b ha hb =>
      simp only [dist] at h
      obtain ⟨⟨r1, s1⟩, e1, h⟩ := Option.bind_eq_some_iff.1 h
      obtain ⟨⟨r2, s2⟩, e2, h⟩ := Option.map_eq_some_iff.1 h
      simp only [Prod.mk.injEq] at h
      obtain ⟨rfl, rfl⟩ := h
      have fab := FIn.and2.1 fi
      have o1 := ih indef a s r1 s1 ha fab.1 si hN e1
      have hN1 := fun k hk => Nat.le_trans (hN k hk) o1.step.nr
      have o2 := ih indef b s1 r2 s2 hb (fab.2.mono o1.step.nr) o1.sin hN1 e2
      refine ⟨o1.step.trans o2.step, .and o1.cnf o2.cnf, FIn.and2.2 ⟨o1.fin.mono o2.step.nr, o2.fin⟩, o2.sin, ?_⟩
      intro D I ρ hd τ hτ
      rw [holds_and2, holds_and2, o2.eqv _ I ρ hd τ hτ, (o1.eqv.mono o2.step) _ I ρ hd τ hτ]
    | @or a b ha hb =>
      simp only [dist] at h
      obtain ⟨⟨r1, s1⟩, e1, h⟩ := Option.bind_eq_some_iff.1 h
      obtain ⟨⟨r2, s2⟩, e2, h⟩ := Option.bind_eq_some_iff.1 h
      have fab := FIn.or2.1 fi
      have o1 := ih indef a s r1 s1 ha fab.1 si hN e1
      have hN1 := fun k hk => Nat.le_trans (hN k hk) o1.step.nr
      have o2 := ih indef b s1 r2 s2 hb (fab.2.mono o1.step.nr) o1.sin hN1 e2
      have hN2 := fun k hk => Nat.le_trans (hN1 k hk) o2.step.nr
      have f1 : FIn N s2.nr r1 := o1.fin.mono o2.step.nr
      have st12 := o1.step.trans o2.step
      -- enough to treat the two results
      have top : ∀ {g s'}, DRes N (.or [r1, r2]) s2 g s' → DRes N (.or [a, b]) s g s' := by
        intro g s' o
        refine ⟨st12.trans o.step, o.cnf, o.fin, o.sin, fun D I ρ hd τ hτ => ?_⟩
        rw [← o.eqv _ I ρ hd τ hτ, holds_or2, holds_or2, (o2.eqv.mono o.step) _ I ρ hd τ hτ,
          (o1.eqv.mono (o2.step.trans o.step)) _ I ρ hd τ hτ]
      apply top
      simp only at h
      split at h
      · -- clauses
        rename_i h1 h2
        simp only [Option.some.injEq, Prod.mk.injEq] at h
        obtain ⟨rfl, rfl⟩ := h
        exact ⟨.refl _, .cls (.or (o1.cnf.cls_of h1) (o2.cnf.cls_of h2)), FIn.or2.2 ⟨f1, o2.fin⟩, o2.sin, EqvUnder.rfl' _ _⟩
      · -- the first is an and
        rename_i a1 a2 h1 h2
        obtain ⟨⟨r3, s3⟩, e3, h⟩ := Option.bind_eq_some_iff.1 h
        obtain ⟨⟨r4, s4⟩, e4, h⟩ := Option.map_eq_some_iff.1 h
        simp only [Prod.mk.injEq] at h
        obtain ⟨rfl, rfl⟩ := h
        obtain ⟨er, c1, c2⟩ := o1.cnf.args h1
        subst er
        have fa := FIn.and2.1 f1
        have o3 := ih indef _ s2 r3 s3 (.or c1.qf o2.cnf.qf) (FIn.or2.2 ⟨fa.1, o2.fin⟩) o2.sin hN2 e3
        have hN3 := fun k hk => Nat.le_trans (hN2 k hk) o3.step.nr
        have o4 := ih indef _ s3 r4 s4 (.or c2.qf o2.cnf.qf)
          (FIn.or2.2 ⟨fa.2.mono o3.step.nr, o2.fin.mono o3.step.nr⟩) o3.sin hN3 e4
        refine ⟨o3.step.trans o4.step, .and o3.cnf o4.cnf, FIn.and2.2 ⟨o3.fin.mono o4.step.nr, o4.fin⟩, o4.sin, ?_⟩
        intro D I ρ hd τ hτ
        rw [holds_and2, ← o4.eqv _ I ρ hd τ hτ, ← (o3.eqv.mono o4.step) _ I ρ hd τ hτ, holds_or2, holds_or2, holds_or2,
          holds_and2, or_comm, or_and_left, or_comm, @or_comm (I.holds τ r2)]
      · -- the second is an and
        rename_i a1 a2 h1 h2
        obtain ⟨⟨r3, s3⟩, e3, h⟩ := Option.bind_eq_some_iff.1 h
        obtain ⟨⟨r4, s4⟩, e4, h⟩ := Option.map_eq_some_iff.1 h
        simp only [Prod.mk.injEq] at h
        obtain ⟨rfl, rfl⟩ := h
        obtain ⟨er, c1, c2⟩ := o2.cnf.args h2
        have fa := FIn.and2.1 (er ▸ o2.fin)
        have o3 := ih indef _ s2 r3 s3 (.or c2.qf o1.cnf.qf) (FIn.or2.2 ⟨fa.2, f1⟩) o2.sin hN2 e3
        have hN3 := fun k hk => Nat.le_trans (hN2 k hk) o3.step.nr
        have o4 := ih indef _ s3 r4 s4 (.or c1.qf o1.cnf.qf)
          (FIn.or2.2 ⟨fa.1.mono o3.step.nr, f1.mono o3.step.nr⟩) o3.sin hN3 e4
        subst er
        refine ⟨o3.step.trans o4.step, .and o3.cnf o4.cnf, FIn.and2.2 ⟨o3.fin.mono o4.step.nr, o4.fin⟩, o4.sin, ?_⟩
        intro D I ρ hd τ hτ
        rw [holds_and2, ← o4.eqv _ I ρ hd τ hτ, ← (o3.eqv.mono o4.step) _ I ρ hd τ hτ, holds_or2, holds_or2, holds_or2,
          holds_and2, or_and_left, @or_comm (I.holds τ a2), @or_comm (I.holds τ a1)]
        exact and_comm
      · -- both are
        rename_i a1 a2 a3 a4 h1 h2
        split at h
        · -- two definitions
          obtain ⟨⟨d1, s3⟩, e3, h⟩ := Option.bind_eq_some_iff.1 h
          obtain ⟨⟨d2, s4⟩, e4, h⟩ := Option.map_eq_some_iff.1 h
          simp only [Prod.mk.injEq] at h
          obtain ⟨rfl, rfl⟩ := h
          obtain ⟨⟨t1, rfl⟩, o3⟩ := makedef_res (ih true) o1.cnf.qf f1 o2.sin hN2 e3
          have hN3 := fun k hk => Nat.le_trans (hN2 k hk) o3.step.nr
          obtain ⟨⟨t2, rfl⟩, o4⟩ := makedef_res (ih true) o2.cnf.qf (o2.fin.mono o3.step.nr) o3.sin hN3 e4
          refine ⟨o3.step.trans o4.step, .cls (.or (.lit (.at _)) (.lit (.at _))),
            FIn.or2.2 ⟨o3.fin.mono o4.step.nr, o4.fin⟩, o4.sin, ?_⟩
          intro D I ρ hd τ hτ
          rw [holds_or2, holds_or2, o4.eqv _ I ρ hd τ hτ, (o3.eqv.mono o4.step) _ I ρ hd τ hτ]
        · obtain ⟨⟨r3, s3⟩, e3, h⟩ := Option.bind_eq_some_iff.1 h
          obtain ⟨⟨r4, s4⟩, e4, h⟩ := Option.bind_eq_some_iff.1 h
          obtain ⟨⟨r5, s5⟩, e5, h⟩ := Option.bind_eq_some_iff.1 h
          obtain ⟨⟨r6, s6⟩, e6, h⟩ := Option.map_eq_some_iff.1 h
          simp only [Prod.mk.injEq] at h
          obtain ⟨rfl, rfl⟩ := h
          obtain ⟨er, c1, c2⟩ := o1.cnf.args h1
          obtain ⟨er', c3, c4⟩ := o2.cnf.args h2
          have fa := FIn.and2.1 (er ▸ f1)
          have fb := FIn.and2.1 (er' ▸ o2.fin)
          have o3 := ih indef _ s2 r3 s3 (.or c1.qf c3.qf) (FIn.or2.2 ⟨fa.1, fb.1⟩) o2.sin hN2 e3
          have hN3 := fun k hk => Nat.le_trans (hN2 k hk) o3.step.nr
          have l3 := o3.step.nr
          have o4 := ih indef _ s3 r4 s4 (.or c1.qf c4.qf) (FIn.or2.2 ⟨fa.1.mono l3, fb.2.mono l3⟩) o3.sin hN3 e4
          have hN4 := fun k hk => Nat.le_trans (hN3 k hk) o4.step.nr
          have l4 := Nat.le_trans l3 o4.step.nr
          have o5 := ih indef _ s4 r5 s5 (.or c2.qf c3.qf) (FIn.or2.2 ⟨fa.2.mono l4, fb.1.mono l4⟩) o4.sin hN4 e5
          have hN5 := fun k hk => Nat.le_trans (hN4 k hk) o5.step.nr
          have l5 := Nat.le_trans l4 o5.step.nr
          have o6 := ih indef _ s5 r6 s6 (.or c2.qf c4.qf) (FIn.or2.2 ⟨fa.2.mono l5, fb.2.mono l5⟩) o5.sin hN5 e6
          have s56 := o5.step.trans o6.step
          have s46 := o4.step.trans s56
          refine ⟨o3.step.trans s46, .and o3.cnf (.and o4.cnf (.and o5.cnf o6.cnf)),
            FIn.and2.2 ⟨o3.fin.mono s46.nr, FIn.and2.2 ⟨o4.fin.mono s56.nr, FIn.and2.2 ⟨o5.fin.mono o6.step.nr, o6.fin⟩⟩⟩,
            o6.sin, ?_⟩
          intro D I ρ hd τ hτ
          rw [holds_and2, holds_and2, holds_and2, ← o6.eqv _ I ρ hd τ hτ, ← (o5.eqv.mono o6.step) _ I ρ hd τ hτ,
            ← (o4.eqv.mono s56) _ I ρ hd τ hτ, ← (o3.eqv.mono s46) _ I ρ hd τ hτ, er, er']
          rw [holds_or2, holds_or2, holds_or2, holds_or2, holds_or2, holds_and2, holds_and2]
          exact or_four

end Gkc.Props
