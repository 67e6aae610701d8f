import Verif.Props.Clausal
/-
The clausifier keeps answer literals positive (used for C50).
-/
namespace Gkc.Props
open Gkc Gkc.Clausify

/-- an atom that is stored as `$ans(...)` -/
def IsAns (t : FT) : Prop := ∃ p as, t = .app p as ∧ primOf true p = some (.sym "$ans")

/-- no answer literals -/
def FreeOfAns (f : Frm) : Prop := ∀ t, atomIn t f → ¬ IsAns t

mutual
/-- the atom occurs below a negation -/
def negAtom (t : FT) : Frm → Prop
  | .at _ => False
  | .neg f => atomIn t f
  | .and fs => negAtomL t fs
  | .or fs => negAtomL t fs
  | .imp fs => negAtomL t fs
  | .eqv a b => negAtom t a ∨ negAtom t b
  | .all _ f => negAtom t f
  | .ex _ f => negAtom t f
  | .par f => negAtom t f
/-- in one of them -/
def negAtomL (t : FT) : List Frm → Prop
  | [] => False
  | f :: fs => negAtom t f ∨ negAtomL t fs
end

/-- no answer literal is negated -/
def PosAns (f : Frm) : Prop := ∀ t, negAtom t f → ¬ IsAns t

mutual
theorem negAtom_atom {t : FT} : ∀ f, negAtom t f → atomIn t f
  | .at _, h => h.elim
  | .neg _, h => h
  | .par f, h => negAtom_atom f h
  | .all _ f, h => negAtom_atom f h
  | .ex _ f, h => negAtom_atom f h
  | .eqv a b, h => h.imp (negAtom_atom a) (negAtom_atom b)
  | .and fs, h => negAtomL_atom fs h
  | .or fs, h => negAtomL_atom fs h
  | .imp fs, h => negAtomL_atom fs h
theorem negAtomL_atom {t : FT} : ∀ fs, negAtomL t fs → atomInL t fs
  | [], h => h.elim
  | f :: fs, h => h.imp (negAtom_atom f) (negAtomL_atom fs)
end

theorem FreeOfAns.pos {f : Frm} (h : FreeOfAns f) : PosAns f := fun t ht => h t (negAtom_atom f ht)

theorem PosAns.and2 {a b : Frm} : PosAns (.and [a, b]) ↔ PosAns a ∧ PosAns b := by
  simp [PosAns, negAtom, negAtomL, or_imp, forall_and]
theorem PosAns.or2 {a b : Frm} : PosAns (.or [a, b]) ↔ PosAns a ∧ PosAns b := by
  simp [PosAns, negAtom, negAtomL, or_imp, forall_and]
theorem FreeOfAns.and2 {a b : Frm} : FreeOfAns (.and [a, b]) ↔ FreeOfAns a ∧ FreeOfAns b := by
  simp [FreeOfAns, atomIn, atomInL, or_imp, forall_and]
theorem FreeOfAns.or2 {a b : Frm} : FreeOfAns (.or [a, b]) ↔ FreeOfAns a ∧ FreeOfAns b := by
  simp [FreeOfAns, atomIn, atomInL, or_imp, forall_and]

theorem FreeOfAns.args {r a b : Frm} (h : FreeOfAns r) (e : andArgs r = some (a, b)) : FreeOfAns a ∧ FreeOfAns b := by
  unfold andArgs at e
  split at e
  · simp only [Option.some.injEq, Prod.mk.injEq] at e
    obtain ⟨rfl, rfl⟩ := e
    exact ⟨fun t ht => h t (.inl ht), fun t ht => h t (.inr (.inl ht))⟩
  · cases e

/-! ### New names -/

theorem ans_ne_sk (k : Nat) (as : List FT) : ¬ IsAns (.app (skName k) as) := by
  rintro ⟨p, bs, e, h⟩
  cases e
  have := Const.sym.inj (Option.some.inj ((primOf_ok (h := true) (n := skName k) (.inl rfl) (.inl rfl)).symm.trans h |>.trans rfl))
  have := congrArg String.toList this
  simp [skName, uri, String.toList_append] at this

theorem ans_ne_df (k : Nat) (as : List FT) : ¬ IsAns (.app (dfName k) as) := by
  rintro ⟨p, bs, e, h⟩
  cases e
  have := Const.sym.inj (Option.some.inj ((primOf_ok (h := true) (n := dfName k) (.inl rfl) (.inl rfl)).symm.trans h |>.trans rfl))
  have := congrArg String.toList this
  simp [dfName, uri, String.toList_append] at this

theorem ans_ne_var {n : Nm} (hn : n.ty = 14) (as : List FT) : ¬ IsAns (.app n as) := by
  rintro ⟨p, bs, e, h⟩
  cases e
  simp [primOf, hn] at h

theorem ans_ne_nm (n : Nm) : ¬ IsAns (.nm n) := by rintro ⟨_, _, e, _⟩; cases e

/-! ### Moving quantifiers -/

/-- an atom below quantifiers -/
inductive AnsF : Frm → Prop
  | at (p : Nm) (as : List FT) : AnsF (.at (.app p as))
  | all (vs : List Nm) {f : Frm} : AnsF f → AnsF (.all vs f)

/-- an answer atom or something without answers, below universal quantifiers -/
inductive AnsOr : Frm → Prop
  | or {a b : Frm} : AnsF a → FreeOfAns b → AnsOr (.or [a, b])
  | all (vs : List Nm) {f : Frm} : AnsOr f → AnsOr (.all vs f)

theorem AnsF.quantNe {f : Frm} (h : AnsF f) (vs : List Nm) : AnsF (quantNe true vs f) := by
  unfold Clausify.quantNe
  split
  · exact h
  · exact .all vs h

theorem AnsOr.quantNe {f : Frm} (h : AnsOr f) (vs : List Nm) : AnsOr (quantNe true vs f) := by
  unfold Clausify.quantNe
  split
  · exact h
  · exact .all vs h

theorem AnsF.pushQ {f g : Frm} (h : AnsF f) {vs : List Nm} (e : pushQ true vs f = some g) : AnsF g := by
  cases h with
  | «at» p as => simp only [Clausify.pushQ, Option.some.injEq] at e; subst e; exact AnsF.quantNe (.at p as) _
  | all us h => simp only [Clausify.pushQ, Option.some.injEq] at e; subst e; exact AnsF.quantNe (.all us h) _

theorem AnsF.mini {f : Frm} (h : AnsF f) : ∀ g, mini f = some g → AnsF g := by
  induction h with
  | «at» p as => intro g e; simp only [Clausify.mini, Option.some.injEq] at e; subst e; exact .at p as
  | all vs _ ih =>
    intro g e
    simp only [Clausify.mini] at e
    obtain ⟨k, e1, e⟩ := Option.bind_eq_some_iff.1 e
    exact (ih k e1).pushQ e

theorem FreeOfAns.quant {f : Frm} (h : FreeOfAns f) (q : Bool) (vs : List Nm) : FreeOfAns (Clausify.quant q vs f) :=
  fun t ht => h t (atomIn_quant.1 ht)

theorem AnsOr.pushQ {f g : Frm} (h : AnsOr f) {vs : List Nm} (e : pushQ true vs f = some g) : AnsOr g := by
  cases h with
  | all us h => simp only [Clausify.pushQ, Option.some.injEq] at e; subst e; exact AnsOr.quantNe (.all us h) _
  | @or a b ha hb =>
    simp only [Clausify.pushQ, Option.some.injEq] at e
    subst e
    unfold pushJ
    simp only
    split
    · exact .or ha hb
    · split
      · exact .or ha (hb.quant true _)
      · split
        · exact .or (.all _ ha) hb
        · exact AnsOr.quantNe (.or ha hb) _

theorem AnsOr.mini {f : Frm} (h : AnsOr f) (hf : Nnf2 f) : ∀ g, mini f = some g → AnsOr g := by
  induction h with
  | @or a b ha hb =>
    intro g e
    have nb : Nnf2 b := by cases hf; assumption
    simp only [Clausify.mini] at e
    obtain ⟨a', e1, e⟩ := Option.bind_eq_some_iff.1 e
    obtain ⟨b', e2, rfl⟩ := Option.map_eq_some_iff.1 e
    exact .or (ha.mini a' e1) (fun t ht => hb t ((mini_parts nb b' e2).1 t ht))
  | all vs _ ih =>
    intro g e
    have nf := by cases hf with | all _ h => exact h
    simp only [Clausify.mini] at e
    obtain ⟨k, e1, e⟩ := Option.bind_eq_some_iff.1 e
    exact (ih nf k e1).pushQ e

/-! ### Skolemisation -/

/-- the values of bound variables are variables and Skolem terms -/
def NoAnsVals (A : Assoc) : Prop := ∀ n m, look A n = some (.nm m) → m.ty = 14 ∨ ∃ k, m = skName k

theorem NoAnsVals.repl {A : Assoc} (h : NoAnsVals A) {t u : FT} (ht : ¬ IsAns t) (e : repl A t = some u) : ¬ IsAns u ∨ ∃ n, t = .nm n := by
  cases t with
  | nm n => exact .inr ⟨n, rfl⟩
  | app f as =>
    refine .inl ?_
    rw [Clausify.repl] at e
    split at e
    · obtain ⟨bs, -, rfl⟩ := Option.map_eq_some_iff.1 e
      rintro ⟨p, cs, e', hp⟩
      cases e'
      exact ht ⟨_, _, rfl, hp⟩
    · rename_i m hl
      obtain ⟨bs, -, rfl⟩ := Option.map_eq_some_iff.1 e
      rcases h f m hl with h | ⟨k, rfl⟩
      · exact ans_ne_var h _
      · exact ans_ne_sk k _
    · cases e

theorem NoAnsVals.append {A A' : Assoc} {k k' : Nat} {vs : List Nm} {mk : Nat → FT} (h : NoAnsVals A)
    (hm : ∀ k m, mk k = .nm m → m.ty = 14 ∨ ∃ k, m = skName k) (e : appendG mk A k vs = some (A', k')) : NoAnsVals A' := by
  have ok := appendG_ok _ _ _ _ _ _ e
  intro n m hl
  by_cases hv : n ∈ vs
  · obtain ⟨i, _, e'⟩ := ok.new n hv
    rw [hl] at e'
    exact hm _ _ (Option.some.inj e').symm
  · rw [ok.old n hv] at hl
    exact h n m hl

theorem newVal (k : Nat) (m : Nm) (e : FT.nm (newVar k) = .nm m) : m.ty = 14 ∨ ∃ k, m = skName k := by
  cases e; exact .inl rfl

theorem skVal (us : List FT) (k : Nat) (m : Nm) (e : skTerm k us = .nm m) : m.ty = 14 ∨ ∃ k, m = skName k := by
  unfold skTerm at e
  split at e
  · cases e; exact .inr ⟨k, rfl⟩
  · cases e

/-- a negated propositional symbol is looked up, and its value is a Skolem term at most -/
theorem NoAnsVals.neg {A : Assoc} (h : ∀ n t, look A n = some t → ¬ IsAns t) {n : Nm} {u : FT} (e : Clausify.repl A (.nm n) = some u) :
    ¬ IsAns u := by
  simp only [Clausify.repl, Option.some.injEq] at e
  subst e
  cases hl : look A n with
  | none => exact ans_ne_nm n
  | some t => exact h n t hl

/-- the values of bound variables are not answer literals -/
def CleanVals (A : Assoc) : Prop := NoAnsVals A ∧ ∀ n t, look A n = some t → ¬ IsAns t

theorem CleanVals.append {A A' : Assoc} {k k' : Nat} {vs : List Nm} {mk : Nat → FT} (h : CleanVals A)
    (hm : ∀ k m, mk k = .nm m → m.ty = 14 ∨ ∃ k, m = skName k) (hc : ∀ k, ¬ IsAns (mk k)) (e : appendG mk A k vs = some (A', k')) : CleanVals A' := by
  refine ⟨h.1.append hm e, ?_⟩
  have ok := appendG_ok _ _ _ _ _ _ e
  intro n t hl
  by_cases hv : n ∈ vs
  · obtain ⟨i, _, e'⟩ := ok.new n hv
    rw [hl] at e'
    cases e'
    exact hc _
  · rw [ok.old n hv] at hl
    exact h.2 n t hl

theorem CleanVals.all {A A' : Assoc} {k k' : Nat} {vs : List Nm} (h : CleanVals A) (e : appendAll A k vs = some (A', k')) : CleanVals A' := by
  rw [appendAll_eq] at e
  exact h.append newVal (fun _ => ans_ne_nm _) e

theorem CleanVals.ex {A A' : Assoc} {k k' : Nat} {vs : List Nm} {us : List FT} (h : CleanVals A) (e : appendEx us A k vs = some (A', k')) :
    CleanVals A' := by
  rw [appendEx_eq] at e
  refine h.append (skVal us) (fun j => ?_) e
  unfold skTerm
  split
  · exact ans_ne_nm _
  · exact ans_ne_sk j us

theorem skol_clean {f : Frm} (hf : Nnf2 f) : ∀ (A : Assoc) (vn sn : Nat) (g : Frm) (vn' sn' : Nat), CleanVals A → FreeOfAns f →
    skol A vn sn f = some (g, vn', sn') → FreeOfAns g := by
  induction hf with
  | «at» t =>
    intro A vn sn g vn' sn' hA hc h
    cases t with
    | nm n =>
      simp only [skol, Option.some.injEq, Prod.mk.injEq] at h
      obtain ⟨rfl, rfl, rfl⟩ := h
      exact hc
    | app p as =>
      simp only [skol] at h
      obtain ⟨t', e, h⟩ := Option.map_eq_some_iff.1 h
      simp only [Prod.mk.injEq] at h
      obtain ⟨rfl, rfl, rfl⟩ := h
      intro u hu
      cases hu
      exact (hA.1.repl (hc _ rfl) e).resolve_right (by rintro ⟨n, e⟩; cases e)
  | neg t =>
    intro A vn sn g vn' sn' hA hc h
    simp only [skol] at h
    obtain ⟨t', e, h⟩ := Option.map_eq_some_iff.1 h
    simp only [Prod.mk.injEq] at h
    obtain ⟨rfl, rfl, rfl⟩ := h
    intro u hu
    cases hu
    rcases hA.1.repl (hc _ rfl) e with h | ⟨n, rfl⟩
    · exact h
    · exact NoAnsVals.neg hA.2 e
  | @and a b _ _ iha ihb =>
    intro A vn sn g vn' sn' hA hc h
    simp only [skol] at h
    obtain ⟨⟨ga, vn1, sn1⟩, e1, h⟩ := Option.bind_eq_some_iff.1 h
    obtain ⟨⟨gb, vn2, sn2⟩, e2, h⟩ := Option.map_eq_some_iff.1 h
    simp only [Prod.mk.injEq] at h
    obtain ⟨rfl, rfl, rfl⟩ := h
    exact FreeOfAns.and2.2 ⟨iha _ _ _ _ _ _ hA (FreeOfAns.and2.1 hc).1 e1, ihb _ _ _ _ _ _ hA (FreeOfAns.and2.1 hc).2 e2⟩
  | @or a b _ _ iha ihb =>
    intro A vn sn g vn' sn' hA hc h
    simp only [skol] at h
    obtain ⟨⟨ga, vn1, sn1⟩, e1, h⟩ := Option.bind_eq_some_iff.1 h
    obtain ⟨⟨gb, vn2, sn2⟩, e2, h⟩ := Option.map_eq_some_iff.1 h
    simp only [Prod.mk.injEq] at h
    obtain ⟨rfl, rfl, rfl⟩ := h
    exact FreeOfAns.or2.2 ⟨iha _ _ _ _ _ _ hA (FreeOfAns.or2.1 hc).1 e1, ihb _ _ _ _ _ _ hA (FreeOfAns.or2.1 hc).2 e2⟩
  | all vs _ ih =>
    intro A vn sn g vn' sn' hA hc h
    simp only [skol] at h
    obtain ⟨⟨A', vn1⟩, e1, h⟩ := Option.bind_eq_some_iff.1 h
    exact ih A' vn1 sn g vn' sn' (hA.all e1) hc h
  | ex vs _ ih =>
    intro A vn sn g vn' sn' hA hc h
    simp only [skol] at h
    obtain ⟨⟨A', sn1⟩, e1, h⟩ := Option.bind_eq_some_iff.1 h
    exact ih A' vn sn1 g vn' sn' (hA.ex e1) hc h

theorem skol_ansF {f : Frm} (hf : AnsF f) : ∀ (A : Assoc) (vn sn : Nat) (g : Frm) (vn' sn' : Nat),
    skol A vn sn f = some (g, vn', sn') → ∃ t, g = .at t := by
  induction hf with
  | «at» p as =>
    intro A vn sn g vn' sn' h
    simp only [skol] at h
    obtain ⟨t', e, h⟩ := Option.map_eq_some_iff.1 h
    simp only [Prod.mk.injEq] at h
    exact ⟨t', h.1.symm⟩
  | all vs _ ih =>
    intro A vn sn g vn' sn' h
    simp only [skol] at h
    obtain ⟨⟨A', vn1⟩, e1, h⟩ := Option.bind_eq_some_iff.1 h
    exact ih A' vn1 sn g vn' sn' h

theorem skol_ansOr {f : Frm} (hf : AnsOr f) (hn : Nnf2 f) : ∀ (A : Assoc) (vn sn : Nat) (g : Frm) (vn' sn' : Nat), CleanVals A →
    skol A vn sn f = some (g, vn', sn') → ∃ t b, g = .or [.at t, b] ∧ FreeOfAns b := by
  induction hf with
  | @or a b ha hb =>
    intro A vn sn g vn' sn' hA h
    have nb : Nnf2 b := by cases hn; assumption
    simp only [skol] at h
    obtain ⟨⟨ga, vn1, sn1⟩, e1, h⟩ := Option.bind_eq_some_iff.1 h
    obtain ⟨⟨gb, vn2, sn2⟩, e2, h⟩ := Option.map_eq_some_iff.1 h
    simp only [Prod.mk.injEq] at h
    obtain ⟨rfl, rfl, rfl⟩ := h
    obtain ⟨t, rfl⟩ := skol_ansF ha _ _ _ _ _ _ e1
    exact ⟨t, gb, rfl, skol_clean nb _ _ _ _ _ _ hA hb e2⟩
  | all vs _ ih =>
    intro A vn sn g vn' sn' hA h
    have nf := by cases hn with | all _ h => exact h
    simp only [skol] at h
    obtain ⟨⟨A', vn1⟩, e1, h⟩ := Option.bind_eq_some_iff.1 h
    exact ih nf A' vn1 sn g vn' sn' (hA.all e1) h

/-! ### Distribution -/

/-- the definitions have no answer literals -/
def DefsClean (s : Clausify.DSt) : Prop := ∀ d, s.defs = some d → FreeOfAns d

/-- what distribution does without answer literals -/
def CleanIH (Dd : Frm → Clausify.DSt → Option (Frm × Clausify.DSt)) : Prop :=
  ∀ f s g s', FreeOfAns f → DefsClean s → Dd f s = some (g, s') → FreeOfAns g ∧ DefsClean s'

theorem defAtom_clean {n : Nat} {f : Frm} {d : FT} (h : defAtom n f = some d) : ¬ IsAns d := by
  unfold defAtom at h
  simp only at h
  split at h
  · cases h
  · simp only [Option.some.injEq] at h
    subst h
    split
    · exact ans_ne_nm _
    · exact ans_ne_df _ _

theorem makedef_clean {Dd : Frm → Clausify.DSt → Option (Frm × Clausify.DSt)} (ih : CleanIH Dd) : CleanIH (makedef Dd) := by
  intro f s g s' hf hd h
  unfold makedef at h
  obtain ⟨d, ed, h⟩ := Option.bind_eq_some_iff.1 h
  obtain ⟨⟨r1, s1⟩, e1, h⟩ := Option.bind_eq_some_iff.1 h
  obtain ⟨nf, en, h⟩ := Option.bind_eq_some_iff.1 h
  obtain ⟨⟨r2, s2⟩, e2, h⟩ := Option.map_eq_some_iff.1 h
  simp only [Prod.mk.injEq] at h
  obtain ⟨rfl, rfl⟩ := h
  have cd : FreeOfAns (.at d) := fun t e => by cases e; exact defAtom_clean ed
  have cn : FreeOfAns nf := fun t ht => hf t (negpush_atoms _ f nf en ht)
  obtain ⟨c1, d1⟩ := ih (.or [.neg (.at d), f]) ⟨s.defs, s.nr + 1⟩ _ _ (FreeOfAns.or2.2 ⟨fun t e => cd t e, hf⟩) (fun d e => hd d e) e1
  obtain ⟨c2, d2⟩ := ih _ _ _ _ (FreeOfAns.or2.2 ⟨cd, cn⟩) d1 e2
  refine ⟨cd, fun u e => ?_⟩
  simp only [Option.some.injEq] at e
  subst e
  unfold addDef
  split
  · exact FreeOfAns.and2.2 ⟨c1, c2⟩
  · rename_i d0 e0
    exact FreeOfAns.and2.2 ⟨d2 d0 e0, FreeOfAns.and2.2 ⟨c1, c2⟩⟩

theorem dist_clean (strat : Bool) : ∀ (n : Nat) (indef : Bool), CleanIH (dist strat n indef) := by
  intro n
  induction n with
  | zero => intro indef f s g s' _ _ h; simp [dist] at h
  | succ n ih =>
    intro indef f s g s' hf hd h
    cases f with
    | «at» t => simp only [dist] at h; cases h; exact ⟨hf, hd⟩
    | neg f => simp only [dist] at h; cases h; exact ⟨hf, hd⟩
    | par f => simp only [dist] at h; exact ih indef f s g s' hf hd h
    | imp fs => simp [dist] at h
    | eqv a b => simp [dist] at h
    | all vs f => simp [dist] at h
    | ex vs f => simp [dist] at h
    | and fs =>
      rcases fs with _ | ⟨a, _ | ⟨b, _ | ⟨d, fs⟩⟩⟩
      iterate 2 · simp [dist] at h
      rotate_left
      · simp [dist] at h
      simp only [dist] at h
      obtain ⟨⟨r1, s1⟩, e1, h⟩ := Option.bind_eq_some_iff.1 h
      obtain ⟨⟨r2, s2⟩, e2, h⟩ := Option.map_eq_some_iff.1 h
      simp only [Prod.mk.injEq] at h
      obtain ⟨rfl, rfl⟩ := h
      obtain ⟨c1, d1⟩ := ih indef _ _ _ _ (FreeOfAns.and2.1 hf).1 hd e1
      obtain ⟨c2, d2⟩ := ih indef _ _ _ _ (FreeOfAns.and2.1 hf).2 d1 e2
      exact ⟨FreeOfAns.and2.2 ⟨c1, c2⟩, d2⟩
    | or fs =>
      rcases fs with _ | ⟨a, _ | ⟨b, _ | ⟨d, fs⟩⟩⟩
      iterate 2 · simp [dist] at h
      rotate_left
      · simp [dist] at h
      simp only [dist] at h
      obtain ⟨⟨r1, s1⟩, e1, h⟩ := Option.bind_eq_some_iff.1 h
      obtain ⟨⟨r2, s2⟩, e2, h⟩ := Option.bind_eq_some_iff.1 h
      obtain ⟨c1, d1⟩ := ih indef _ _ _ _ (FreeOfAns.or2.1 hf).1 hd e1
      obtain ⟨c2, d2⟩ := ih indef _ _ _ _ (FreeOfAns.or2.1 hf).2 d1 e2
      simp only at h
      split at h
      · cases h
        exact ⟨FreeOfAns.or2.2 ⟨c1, c2⟩, d2⟩
      · rename_i a1 a2 h1 h2
        obtain ⟨⟨r3, s3⟩, e3, h⟩ := Option.bind_eq_some_iff.1 h
        obtain ⟨⟨r4, s4⟩, e4, h⟩ := Option.map_eq_some_iff.1 h
        simp only [Prod.mk.injEq] at h
        obtain ⟨rfl, rfl⟩ := h
        obtain ⟨w1, w2⟩ := c1.args h1
        obtain ⟨c3, d3⟩ := ih indef _ _ _ _ (FreeOfAns.or2.2 ⟨w1, c2⟩) d2 e3
        obtain ⟨c4, d4⟩ := ih indef _ _ _ _ (FreeOfAns.or2.2 ⟨w2, c2⟩) d3 e4
        exact ⟨FreeOfAns.and2.2 ⟨c3, c4⟩, d4⟩
      · rename_i a1 a2 h1 h2
        obtain ⟨⟨r3, s3⟩, e3, h⟩ := Option.bind_eq_some_iff.1 h
        obtain ⟨⟨r4, s4⟩, e4, h⟩ := Option.map_eq_some_iff.1 h
        simp only [Prod.mk.injEq] at h
        obtain ⟨rfl, rfl⟩ := h
        obtain ⟨w1, w2⟩ := c2.args h2
        obtain ⟨c3, d3⟩ := ih indef _ _ _ _ (FreeOfAns.or2.2 ⟨w2, c1⟩) d2 e3
        obtain ⟨c4, d4⟩ := ih indef _ _ _ _ (FreeOfAns.or2.2 ⟨w1, c1⟩) d3 e4
        exact ⟨FreeOfAns.and2.2 ⟨c3, c4⟩, d4⟩
      · rename_i a1 a2 a3 a4 h1 h2
        split at h
        · obtain ⟨⟨b1, s3⟩, e3, h⟩ := Option.bind_eq_some_iff.1 h
          obtain ⟨⟨b2, s4⟩, e4, h⟩ := Option.map_eq_some_iff.1 h
          simp only [Prod.mk.injEq] at h
          obtain ⟨rfl, rfl⟩ := h
          obtain ⟨c3, d3⟩ := makedef_clean (ih true) _ _ _ _ c1 d2 e3
          obtain ⟨c4, d4⟩ := makedef_clean (ih true) _ _ _ _ c2 d3 e4
          exact ⟨FreeOfAns.or2.2 ⟨c3, c4⟩, d4⟩
        · obtain ⟨⟨r3, s3⟩, e3, h⟩ := Option.bind_eq_some_iff.1 h
          obtain ⟨⟨r4, s4⟩, e4, h⟩ := Option.bind_eq_some_iff.1 h
          obtain ⟨⟨r5, s5⟩, e5, h⟩ := Option.bind_eq_some_iff.1 h
          obtain ⟨⟨r6, s6⟩, e6, h⟩ := Option.map_eq_some_iff.1 h
          simp only [Prod.mk.injEq] at h
          obtain ⟨rfl, rfl⟩ := h
          obtain ⟨w1, w2⟩ := c1.args h1
          obtain ⟨w3, w4⟩ := c2.args h2
          obtain ⟨c3, d3⟩ := ih indef _ _ _ _ (FreeOfAns.or2.2 ⟨w1, w3⟩) d2 e3
          obtain ⟨c4, d4⟩ := ih indef _ _ _ _ (FreeOfAns.or2.2 ⟨w1, w4⟩) d3 e4
          obtain ⟨c5, d5⟩ := ih indef _ _ _ _ (FreeOfAns.or2.2 ⟨w2, w3⟩) d4 e5
          obtain ⟨c6, d6⟩ := ih indef _ _ _ _ (FreeOfAns.or2.2 ⟨w2, w4⟩) d5 e6
          exact ⟨FreeOfAns.and2.2 ⟨c3, FreeOfAns.and2.2 ⟨c4, FreeOfAns.and2.2 ⟨c5, c6⟩⟩⟩, d6⟩

/-- distribution of an answer atom -/
theorem dist_ans (strat : Bool) : ∀ (n : Nat) (indef : Bool) (t : FT) (b f : Frm) (s : Clausify.DSt) (g : Frm) (s' : Clausify.DSt),
    FreeOfAns b → DefsClean s → f = .or [.at t, b] ∨ f = .or [b, .at t] → dist strat n indef f s = some (g, s') → PosAns g ∧ DefsClean s' := by
  intro n
  induction n with
  | zero => intro indef t b f s g s' _ _ _ h; simp [dist] at h
  | succ n ih =>
    intro indef t b f s g s' hb hd hf h
    have atD : ∀ {m : Nat} {s s' : Clausify.DSt} {r : Frm}, dist strat m indef (.at t) s = some (r, s') → r = .at t ∧ s' = s := by
      intro m s s' r e
      cases m with
      | zero => simp [dist] at e
      | succ m => simp only [dist] at e; cases e; exact ⟨rfl, rfl⟩
    have pt : PosAns (.at t) := fun u hu => hu.elim
    rcases hf with rfl | rfl
    · simp only [dist] at h
      obtain ⟨⟨r1, s1⟩, e1, h'⟩ := Option.bind_eq_some_iff.1 h
      clear h
      obtain ⟨⟨r2, s2⟩, e2, h⟩ := Option.bind_eq_some_iff.1 h'
      clear h'
      obtain ⟨rfl, rfl⟩ := atD e1
      obtain ⟨c2, d2⟩ := dist_clean strat n indef _ _ _ _ hb hd e2
      simp only [andArgs] at h
      split at h
      · cases h
        exact ⟨PosAns.or2.2 ⟨pt, c2.pos⟩, d2⟩
      · rename_i h1 h2; cases h1
      · rename_i a1 a2 h1 h2
        obtain ⟨⟨r3, s3⟩, e3, h⟩ := Option.bind_eq_some_iff.1 h
        obtain ⟨⟨r4, s4⟩, e4, h⟩ := Option.map_eq_some_iff.1 h
        simp only [Prod.mk.injEq] at h
        obtain ⟨rfl, rfl⟩ := h
        obtain ⟨w1, w2⟩ := c2.args h2
        obtain ⟨c3, d3⟩ := ih indef t a2 _ _ _ _ w2 d2 (.inr rfl) e3
        obtain ⟨c4, d4⟩ := ih indef t a1 _ _ _ _ w1 d3 (.inr rfl) e4
        exact ⟨PosAns.and2.2 ⟨c3, c4⟩, d4⟩
      · rename_i h1 h2; cases h1
    · simp only [dist] at h
      obtain ⟨⟨r1, s1⟩, e1, h'⟩ := Option.bind_eq_some_iff.1 h
      clear h
      obtain ⟨⟨r2, s2⟩, e2, h⟩ := Option.bind_eq_some_iff.1 h'
      clear h'
      obtain ⟨c1, d1⟩ := dist_clean strat n indef _ _ _ _ hb hd e1
      obtain ⟨rfl, rfl⟩ := atD e2
      simp only at h
      split at h
      · cases h
        exact ⟨PosAns.or2.2 ⟨c1.pos, pt⟩, d1⟩
      · rename_i a1 a2 h1 h2
        obtain ⟨⟨r3, s3⟩, e3, h⟩ := Option.bind_eq_some_iff.1 h
        obtain ⟨⟨r4, s4⟩, e4, h⟩ := Option.map_eq_some_iff.1 h
        simp only [Prod.mk.injEq] at h
        obtain ⟨rfl, rfl⟩ := h
        obtain ⟨w1, w2⟩ := c1.args h1
        obtain ⟨c3, d3⟩ := ih indef t a1 _ _ _ _ w1 d1 (.inr rfl) e3
        obtain ⟨c4, d4⟩ := ih indef t a2 _ _ _ _ w2 d3 (.inr rfl) e4
        exact ⟨PosAns.and2.2 ⟨c3, c4⟩, d4⟩
      · rename_i h1 h2; simp [andArgs] at h2
      · rename_i h1 h2; simp [andArgs] at h2

/-! ### The clausifier -/

theorem posAns_withDefs {g : Frm} {s : Clausify.DSt} (hg : PosAns g) (hd : DefsClean s) : PosAns (withDefs g s) := by
  unfold withDefs
  split
  · exact hg
  · rename_i d e
    exact PosAns.and2.2 ⟨hg, (hd d e).pos⟩

theorem negpush_ansOr {f : Frm} (h : ∃ vs p as q, f = .all vs (.imp [q, .at (.app p as)]) ∧ FreeOfAns q) : ∀ g, negpush true f = some g → AnsOr g := by
  obtain ⟨vs, p, as, q, rfl, hq⟩ := h
  intro g e
  simp only [negpush, List.length_cons, List.length_nil, Nat.lt_irrefl, if_false, negpushI] at e
  obtain ⟨gs, h1, rfl⟩ := Option.map_eq_some_iff.1 e
  obtain ⟨ks, h2, rfl⟩ := Option.map_eq_some_iff.1 h1
  obtain ⟨x, e1, h3⟩ := Option.bind_eq_some_iff.1 h2
  simp only [if_true, Option.map_some, Option.some.injEq] at h3
  subst h3
  exact .all vs (.or (.at p as) (fun t ht => hq t (negpush_atoms _ q x e1 ht)))

theorem TwoArg.close {f : Frm} (h : TwoArg f) (c : VarCfg) : TwoArg (Clausify.close c f) := by
  unfold Clausify.close
  split
  · exact h
  · exact .all _ h

theorem atomIn_close {c : VarCfg} {f : Frm} {t : FT} (h : atomIn t (Clausify.close c f)) : atomIn t f := by
  unfold Clausify.close at h
  split at h
  · exact h
  · exact h

theorem steps_clean {strat : Bool} {fuel sn nr sn' nr' : Nat} {f g : Frm} (h2 : TwoArg f) (hf : FreeOfAns f)
    (e : clausifySteps strat fuel sn nr f = some (g, sn', nr')) : PosAns g := by
  unfold clausifySteps at e
  obtain ⟨f1, e1, e⟩ := Option.bind_eq_some_iff.1 e
  obtain ⟨f2, e2, e⟩ := Option.bind_eq_some_iff.1 e
  obtain ⟨⟨f3, vn3, sn3⟩, e3, e⟩ := Option.bind_eq_some_iff.1 e
  obtain ⟨⟨g4, s4⟩, e4, e⟩ := Option.map_eq_some_iff.1 e
  simp only [Prod.mk.injEq] at e
  obtain ⟨rfl, rfl, rfl⟩ := e
  have n1 := (negpush_two h2 true f1 e1).nnf
  obtain ⟨f2', e2', n2⟩ := mini_total n1
  cases e2.symm.trans e2'
  have c2 : FreeOfAns f2 := fun t ht => hf t (negpush_atoms _ _ _ e1 ((mini_parts n1 f2 e2).1 t ht))
  have hA : CleanVals [] := ⟨fun n m h => by simp [look_nil] at h, fun n t h => by simp [look_nil] at h⟩
  have c3 := skol_clean n2 _ _ _ _ _ _ hA c2 e3
  obtain ⟨c4, d4⟩ := dist_clean strat fuel false _ _ _ _ c3 (fun d e => by cases e) e4
  exact posAns_withDefs c4.pos d4

theorem steps_ansOr {strat : Bool} {fuel sn nr sn' nr' : Nat} {f g : Frm} (h2 : TwoArg f) (hf : ∀ g, negpush true f = some g → AnsOr g)
    (e : clausifySteps strat fuel sn nr f = some (g, sn', nr')) : PosAns g := by
  unfold clausifySteps at e
  obtain ⟨f1, e1, e⟩ := Option.bind_eq_some_iff.1 e
  obtain ⟨f2, e2, e⟩ := Option.bind_eq_some_iff.1 e
  obtain ⟨⟨f3, vn3, sn3⟩, e3, e⟩ := Option.bind_eq_some_iff.1 e
  obtain ⟨⟨g4, s4⟩, e4, e⟩ := Option.map_eq_some_iff.1 e
  simp only [Prod.mk.injEq] at e
  obtain ⟨rfl, rfl, rfl⟩ := e
  have n1 := (negpush_two h2 true f1 e1).nnf
  obtain ⟨f2', e2', n2⟩ := mini_total n1
  cases e2.symm.trans e2'
  have a2 := (hf f1 e1).mini n1 f2 e2
  have hA : CleanVals [] := ⟨fun n m h => by simp [look_nil] at h, fun n t h => by simp [look_nil] at h⟩
  obtain ⟨t, b, rfl, cb⟩ := skol_ansOr a2 n2 _ _ _ _ _ _ hA e3
  obtain ⟨p4, d4⟩ := dist_ans strat fuel false t b _ _ _ _ cb (fun d e => by cases e) (.inl rfl) e4
  exact posAns_withDefs p4 d4

/-- the formula of a question with variables -/
def IsAsk (f : Frm) : Prop := ∃ vs p as q, f = .all vs (.imp [q, .at (.app p as)]) ∧ FreeOfAns q

theorem clausify_clean {c : VarCfg} {strat : Bool} {fuel sn nr : Nat} : ∀ {f g : Frm} {sn' nr' : Nat}, TwoArg f → FreeOfAns f →
    clausify c strat fuel sn nr f = some (g, sn', nr') → PosAns g := by
  have gen : ∀ {f g : Frm} {sn' nr' : Nat}, TwoArg f → FreeOfAns f →
      clausifySteps strat fuel sn nr (close c f) = some (g, sn', nr') → PosAns g :=
    fun h2 hf e => steps_clean (h2.close c) (fun t ht => hf t (atomIn_close ht)) e
  intro f
  induction f using Frm.rec (motive_2 := fun _ => True) with
  | «at» t =>
    intro g sn' nr' _ hf h
    simp only [clausify, Option.some.injEq, Prod.mk.injEq] at h
    obtain ⟨rfl, -, -⟩ := h
    exact hf.pos
  | par f ih =>
    intro g sn' nr' h2 hf h
    simp only [clausify] at h
    split at h
    · exact ih (by cases h2; assumption) hf h
    · cases h
  | neg f _ => intro g sn' nr' h2 hf h; exact gen h2 hf h
  | and f _ => intro g sn' nr' h2 hf h; exact gen h2 hf h
  | or f _ => intro g sn' nr' h2 hf h; exact gen h2 hf h
  | imp f _ => intro g sn' nr' h2 hf h; exact gen h2 hf h
  | eqv a b _ _ => intro g sn' nr' h2 hf h; exact gen h2 hf h
  | all vs f _ => intro g sn' nr' h2 hf h; exact gen h2 hf h
  | ex vs f _ => intro g sn' nr' h2 hf h; exact gen h2 hf h
  | nil => trivial
  | cons _ _ _ _ => trivial

theorem clausify_ask {c : VarCfg} {strat : Bool} {fuel sn nr : Nat} {f g : Frm} {sn' nr' : Nat} (h2 : TwoArg f) (hf : IsAsk f)
    (e : clausify c strat fuel sn nr f = some (g, sn', nr')) : PosAns g := by
  obtain ⟨vs, p, as, q, rfl, hq⟩ := hf
  have e : clausifySteps strat fuel sn nr (close c _) = _ := e
  refine steps_ansOr (h2.close c) (fun k ek => ?_) e
  unfold Clausify.close at ek
  split at ek
  · exact negpush_ansOr ⟨_, _, _, _, rfl, hq⟩ k ek
  · rw [negpush] at ek
    obtain ⟨k', ek', rfl⟩ := Option.map_eq_some_iff.1 ek
    exact .all _ (negpush_ansOr ⟨_, _, _, _, rfl, hq⟩ k' ek')

/-! ### Flattening and building -/

theorem flatOr_pos (f : Frm) : PosAns f → ∀ ls, flatOr f = some (.lits ls) → ∀ l ∈ ls, PosAns l := by
  induction f using flatOr.induct with
  | case1 f ih => intro h ls e; rw [flatOr] at e; exact ih h ls e
  | case2 a b rest hab iha ihb =>
    intro h ls e l hl
    rw [flatOr, if_pos hab] at e
    obtain ⟨ra, ea, e⟩ := Option.bind_eq_some_iff.1 e
    obtain ⟨rb, eb, e⟩ := Option.map_eq_some_iff.1 e
    have pa : PosAns a := fun t ht => h t (.inl ht)
    have pb : PosAns b := fun t ht => h t (.inr (.inl ht))
    split at e
    · cases e
    · cases e
    · cases e
      rcases List.mem_append.1 hl with h | h
      · exact iha pa _ ea l h
      · exact ihb pb _ eb l h
  | case3 a b rest hab h1 => intro h ls e; rw [flatOr, if_neg hab, if_pos h1] at e; cases e
  | case4 a b rest hab h1 ha ih =>
    intro h ls e
    rw [flatOr, if_neg hab, if_neg h1, if_pos ha] at e
    exact ih (fun t ht => h t (.inr (.inl ht))) ls e
  | case5 a b rest hab h1 ha ih =>
    intro h ls e
    rw [flatOr, if_neg hab, if_neg h1, if_neg ha] at e
    exact ih (fun t ht => h t (.inl ht)) ls e
  | case6 fs hne => intro h ls e; rw [flatOr] at e; cases e; assumption
  | case7 f h1 h2 h3 =>
    intro h ls e l hl
    have : flatOr f = some (.lits [f]) := by
      rw [flatOr] <;> assumption
    rw [this] at e
    cases e
    simp only [List.mem_singleton] at hl
    subst hl
    exact h

theorem flat_pos (f : Frm) : PosAns f → ∀ cs, flat f = some cs → ∀ ls, .lits ls ∈ cs → ∀ l ∈ ls, PosAns l := by
  induction f using flat.induct with
  | case1 f ih => intro h cs e; rw [flat] at e; exact ih h cs e
  | case2 a b rest iha ihb =>
    intro h cs e ls hm
    rw [flat] at e
    obtain ⟨ra, ea, e⟩ := Option.bind_eq_some_iff.1 e
    obtain ⟨rb, eb, rfl⟩ := Option.map_eq_some_iff.1 e
    rcases List.mem_append.1 hm with hm | hm
    · exact iha (fun t ht => h t (.inl ht)) ra ea ls hm
    · exact ihb (fun t ht => h t (.inr (.inl ht))) rb eb ls hm
  | case3 fs hne => intro h cs e; rw [flat] at e; cases e; assumption
  | case4 f h1 h2 h3 =>
    intro h cs e ls hm
    have : flat f = (flatOr f).map ([·]) := by rw [flat] <;> assumption
    rw [this] at e
    obtain ⟨cl, ec, rfl⟩ := Option.map_eq_some_iff.1 e
    simp only [List.mem_singleton] at hm
    subst hm
    exact flatOr_pos f h ls ec

theorem buildA_ans {c : VarCfg} {vd vd' : List String} {t : FT} {as : List Term}
    (e : buildA c vd t = some (.app (.sym "$ans") as, vd')) : IsAns t := by
  cases t with
  | nm n =>
    simp only [buildA] at e
    obtain ⟨⟨u, vd1⟩, -, e⟩ := Option.map_eq_some_iff.1 e
    simp at e
  | app p bs =>
    simp only [buildA] at e
    obtain ⟨k, ek, e⟩ := Option.bind_eq_some_iff.1 e
    obtain ⟨⟨cs, vd1⟩, -, e⟩ := Option.map_eq_some_iff.1 e
    simp only [Prod.mk.injEq, Term.app.injEq] at e
    exact ⟨p, bs, rfl, by rw [ek, e.1.1]⟩

theorem buildLs_ans {c : VarCfg} : ∀ (ls : List Frm) (vd : List String) (Ls : List Gkc.Lit), (∀ l ∈ ls, PosAns l) →
    buildLs c vd ls = some Ls → ∀ l ∈ Ls, ∀ as, l.atom = .app (.sym "$ans") as → l.neg = false
  | [], vd, Ls, _, e, l, hl => by simp only [buildLs, Option.some.injEq] at e; subst e; simp at hl
  | f :: fs, vd, Ls, h, e, l, hl => by
    intro as ha
    simp only [buildLs] at e
    obtain ⟨⟨l0, vd1⟩, e0, e⟩ := Option.bind_eq_some_iff.1 e
    obtain ⟨Ls', e1, rfl⟩ := Option.map_eq_some_iff.1 e
    rcases List.mem_cons.1 hl with rfl | hl
    · unfold Clausify.buildL at e0
      split at e0
      · obtain ⟨⟨t, vd2⟩, -, e0⟩ := Option.map_eq_some_iff.1 e0
        simp only [Prod.mk.injEq] at e0
        rw [← e0.1]
      · rename_i u
        obtain ⟨⟨t, vd2⟩, eb, e0⟩ := Option.map_eq_some_iff.1 e0
        simp only [Prod.mk.injEq] at e0
        rw [← e0.1] at ha
        have ha : t = _ := ha
        subst ha
        exact absurd (buildA_ans eb) (h _ List.mem_cons_self u rfl)
      · cases e0
    · exact buildLs_ans fs vd1 Ls' (fun l hl => h l (List.mem_cons_of_mem _ hl)) e1 l hl as ha

/-- the literals of a flat clause -/
def FPos : FCl → Prop
  | .tru => True
  | .lits ls => ∀ l ∈ ls, PosAns l

theorem buildCl_ans {c : VarCfg} {fc : FCl} {Ls : List Gkc.Lit} (h : FPos fc) (e : buildCl c fc = some Ls) :
    ∀ l ∈ Ls, ∀ as, l.atom = .app (.sym "$ans") as → l.neg = false := by
  cases fc with
  | tru => exact buildLs_ans _ _ _ (by simp [PosAns, negAtom]) e
  | lits ls => exact buildLs_ans _ _ _ h e

theorem clausifies_pos {c : VarCfg} {strat : Bool} {fuel sn nr : Nat} {items : List Item} {fcs : List FCl}
    (h : Clausifies c strat fuel sn nr items fcs) (h2 : ∀ it ∈ items, TwoArg it.prepared)
    (hf : ∀ it ∈ items, FreeOfAns it.prepared ∨ IsAsk it.prepared) : ∀ fc ∈ fcs, FPos fc := by
  induction h with
  | nil => simp
  | @one sn nr sn' nr' it its g cs ds h hfl _ ih =>
    intro fc hm
    rcases List.mem_append.1 hm with hm | hm
    · have pg : PosAns g := (hf it List.mem_cons_self).elim (fun k => clausify_clean (h2 it List.mem_cons_self) k h)
        (fun k => clausify_ask (h2 it List.mem_cons_self) k h)
      cases fc with
      | tru => trivial
      | lits ls => exact flat_pos g pg cs hfl ls hm
    · exact ih (fun it hi => h2 it (List.mem_cons_of_mem _ hi)) (fun it hi => hf it (List.mem_cons_of_mem _ hi)) fc hm
  | skip _ _ _ ih =>
    exact ih (fun it hi => h2 it (List.mem_cons_of_mem _ hi)) (fun it hi => hf it (List.mem_cons_of_mem _ hi))

end Gkc.Props
