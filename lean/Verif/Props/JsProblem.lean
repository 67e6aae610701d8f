import Verif.Props.JsAdm
import Mathlib.Data.List.Forall2
/-
C57: what is proved or answered from a JSON file follows from what the file says.
-/
namespace Gkc.Props.Js
open Gkc Gkc.Clausify
open Gkc.Js (anon G Done formula readF isQ)
open Gkc.Js.Spec (Tm Fm Use WF qvar)

/-! ### Problems (specification) -/

/-- a statement is assumed, to be proved, or asked -/
inductive Kind where
  | axm
  | conj
  | quest
  deriving DecidableEq

/-- a statement of a problem -/
structure Stmt where
  kind : Kind
  fm : Fm

/-- A structure in which `=` is identity, `$true` and `$false` mean what they say, the two names of an arithmetic function
mean the same and so do decimal numerals with the same value; it has two elements. -/
structure Normal {D : Type} (S : Gkc.Js.Spec.Str D) : Prop where
  eq : ∀ a b, S.pr "=" [a, b] ↔ a = b
  tt : S.pr "$true" []
  ff : ¬ S.pr "$false" []
  arith : ∀ s, S.fn (arithName s) = S.fn s
  num : ∀ t t' : String, t.toList.all Char.isDigit = true → t'.toList.all Char.isDigit = true → decimal t = decimal t' → S.num 3 t = S.num 3 t'
  two : ∃ d e : D, d ≠ e

/-- true for all values of its free variables -/
def True_ {D : Type} (S : Gkc.Js.Spec.Str D) (f : Fm) : Prop := ∀ v, S.means [] v f

/-- a conjecture or a question without variables -/
def Goal (st : Stmt) : Prop := st.kind = .conj ∨ st.kind = .quest ∧ st.fm.fv [] = []

/-- the statements are of the language, each name is used in one role, and no name is a variable and something else -/
structure Fine (rl : String → SRole) (P : List Stmt) : Prop where
  sig : Sig rl
  wf : ∀ st ∈ P, WF [] st.fm
  keeps : ∀ st ∈ P, ∀ u ∈ st.fm.uses [], Keeps rl u
  apart : ∀ st ∈ P, Apart st.fm

/-- the way the reader treats a statement: Parser/jsparse.c:1184-1240 -/
def Kind.role : Kind → Gkc.Js.Role
  | .quest => .question
  | _ => .other

/-- what the reader gives to the clausifier for a statement (Parser/jsparse.c:1074-1350); a conjecture is negated later,
Parser/dbparse.c:932-937 -/
def Loaded (st : Stmt) (it : Item) : Prop :=
  it.conj = decide (st.kind = .conj) ∧ ∃ j, (∃ n, ∀ k, n ≤ k → formula k st.kind.role st.fm.json = .ok j) ∧ readF j = some it.frm

/-! ### Variables that are not free do not matter -/

section
variable {D : Type} {S : Gkc.Js.Spec.Str D}

mutual
theorem ev_congr' {sc : List String} {v w : String → D} (hs : ∀ s ∈ sc, v s = w s) : ∀ (t : Tm), (∀ s ∈ Gkc.Js.Spec.fvT sc t, v s = w s) →
    S.ev sc v t = S.ev sc w t
  | .name s, h => by
    simp only [Gkc.Js.Spec.Str.ev]
    split
    · rename_i hc
      by_cases hm : s ∈ sc
      · exact hs s hm
      · exact h s (by simp [Gkc.Js.Spec.fvT, hc.resolve_right hm, hm])
    · rfl
  | .num _ _, _ => rfl
  | .app f as, h => by
    simp only [Gkc.Js.Spec.Str.ev, evL_congr' hs as h]
  | .arith op a b, h => by
    simp only [Gkc.Js.Spec.Str.ev]
    rw [ev_congr' hs a fun s m => h s (List.mem_append_left _ m), ev_congr' hs b fun s m => h s (List.mem_append_right _ m)]
theorem evL_congr' {sc : List String} {v w : String → D} (hs : ∀ s ∈ sc, v s = w s) : ∀ (ts : List Tm), (∀ s ∈ Gkc.Js.Spec.fvTL sc ts, v s = w s) →
    S.evL sc v ts = S.evL sc w ts
  | [], _ => rfl
  | t :: ts, h => by
    simp only [Gkc.Js.Spec.Str.evL]
    rw [ev_congr' hs t fun s m => h s (List.mem_append_left _ m), evL_congr' hs ts fun s m => h s (List.mem_append_right _ m)]
end

/-- the step for quantifiers: other values of variables that do not matter -/
theorem quant_congr {vs sc fv : List String} {P Q : (String → D) → Prop} {v w : String → D} (hs : ∀ s ∈ sc, v s = w s) (h : ∀ s ∈ fv, v s = w s)
    (ih : ∀ v' w' : String → D, (∀ s ∈ vs ++ sc, v' s = w' s) → (∀ s ∈ fv, v' s = w' s) → (P v' ↔ Q w')) (w' : String → D)
    (hw : ∀ s, s ∉ vs → w' s = w s) : ∃ v', (∀ s, s ∉ vs → v' s = v s) ∧ (P v' ↔ Q w') := by
  have e : ∀ s, (s ∈ sc ∨ s ∈ fv) → (if s ∈ vs then w' s else v s) = w' s := by
    intro s hm
    split
    · rfl
    · rename_i hn
      rw [hw s hn]
      exact hm.elim (hs s) (h s)
  refine ⟨fun s => if s ∈ vs then w' s else v s, fun s hn => if_neg hn, ih _ _ (fun s hm => ?_) fun s hm => e s (.inr hm)⟩
  rcases List.mem_append.1 hm with hm | hm
  · exact if_pos hm
  · exact e s (.inl hm)

mutual
theorem means_congr : ∀ (f : Fm) {sc : List String} {v w : String → D}, (∀ s ∈ sc, v s = w s) → (∀ s ∈ f.fv sc, v s = w s) →
    (S.means sc v f ↔ S.means sc w f)
  | .atom p as, sc, v, w, hs, h => by simp only [Gkc.Js.Spec.Str.means, evL_congr' hs as h]
  | .natom _ p as, sc, v, w, hs, h => by simp only [Gkc.Js.Spec.Str.means, evL_congr' hs as h]
  | .prop _, _, _, _, _, _ => Iff.rfl
  | .nprop _, _, _, _, _, _ => Iff.rfl
  | .const _, _, _, _, _, _ => Iff.rfl
  | .eq op _ a b, sc, v, w, hs, h => by
    simp only [Gkc.Js.Spec.Str.means]
    rw [ev_congr' hs a fun s m => h s (List.mem_append_left _ m), ev_congr' hs b fun s m => h s (List.mem_append_right _ m)]
  | .neg _ f, sc, v, w, hs, h => by
    simp only [Gkc.Js.Spec.Str.means]
    rw [means_congr f hs h]
  | .infx op a b, sc, v, w, hs, h => by
    simp only [Gkc.Js.Spec.Str.means]
    rw [means_congr a hs fun s m => h s (List.mem_append_left _ m), means_congr b hs fun s m => h s (List.mem_append_right _ m)]
  | .many _ _ fs, sc, v, w, hs, h => by
    simp only [Gkc.Js.Spec.Str.means]
    rw [(meansL_congr fs hs h).1, (meansL_congr fs hs h).2]
  | .clause fs, sc, v, w, hs, h => (meansL_congr fs hs h).2
  | .quant q vs f, sc, v, w, hs, h => by
    have ih := fun (v' w' : String → D) (h1 : ∀ s ∈ vs ++ sc, v' s = w' s) (h2 : ∀ s ∈ f.fv (vs ++ sc), v' s = w' s) => means_congr f h1 h2
    have k1 := quant_congr (P := fun v => S.means (vs ++ sc) v f) (Q := fun v => S.means (vs ++ sc) v f) hs h ih
    have k2 := quant_congr (P := fun v => S.means (vs ++ sc) v f) (Q := fun v => S.means (vs ++ sc) v f) (v := w) (w := v)
      (fun s m => (hs s m).symm) (fun s m => (h s m).symm) ih
    simp only [Gkc.Js.Spec.Str.means]
    split
    · constructor
      · intro H w' hw
        obtain ⟨v', hv, e⟩ := k1 w' hw
        exact e.1 (H v' hv)
      · intro H w' hw
        obtain ⟨v', hv, e⟩ := k2 w' hw
        exact e.1 (H v' hv)
    · constructor
      · rintro ⟨w', hw, H⟩
        obtain ⟨v', hv, e⟩ := k2 w' hw
        exact ⟨v', hv, e.2 H⟩
      · rintro ⟨w', hw, H⟩
        obtain ⟨v', hv, e⟩ := k1 w' hw
        exact ⟨v', hv, e.2 H⟩
  | .ifThen cs ds, sc, v, w, hs, h => by
    simp only [Gkc.Js.Spec.Str.means]
    rw [(meansL_congr cs hs fun s m => h s (List.mem_append_left _ m)).1, (meansL_congr ds hs fun s m => h s (List.mem_append_right _ m)).2]
theorem meansL_congr : ∀ (fs : List Fm) {sc : List String} {v w : String → D}, (∀ s ∈ sc, v s = w s) → (∀ s ∈ Gkc.Js.Spec.fvL sc fs, v s = w s) →
    (S.allOf sc v fs ↔ S.allOf sc w fs) ∧ (S.anyOf sc v fs ↔ S.anyOf sc w fs)
  | [], _, _, _, _, _ => ⟨Iff.rfl, Iff.rfl⟩
  | f :: fs, sc, v, w, hs, h => by
    have a := means_congr f hs fun s m => h s (List.mem_append_left _ m)
    have b := meansL_congr fs hs fun s m => h s (List.mem_append_right _ m)
    simp only [Gkc.Js.Spec.Str.allOf, Gkc.Js.Spec.Str.anyOf, a, b.1, b.2, and_self]
end

/-! ### The structure of the symbols -/

open Classical in
/-- the value of a symbol that is a constant -/
noncomputable def cstOf (S : Gkc.Js.Spec.Str D) : Const → D
  | .int i => if h : ∃ t : String, t.toList.all Char.isDigit = true ∧ (decimal t : Int) = i then S.num 3 (choose h) else S.cst ""
  | k => S.cst (nameOf k)

/-- the structure, for the symbols of the prover -/
noncomputable def foOf (S : Gkc.Js.Spec.Str D) : FO := ⟨D, cstOf S, fun k => S.fn (nameOf k), fun k => S.pr (nameOf k)⟩

theorem cstOf_anon (s : String) : cstOf S (anonSymbol s) = S.cst s := by
  have h := nameOf_anon s
  rcases anonSymbol_cases s with e | e | ⟨t, e⟩ <;> rw [e] at h ⊢ <;> simp only [cstOf, h]

theorem cstOf_num (hS : Normal S) {t : String} (h : t.toList.all Char.isDigit = true) : cstOf S (.int (decimal t)) = S.num 3 t := by
  have hx : ∃ u : String, u.toList.all Char.isDigit = true ∧ (decimal u : Int) = decimal t := ⟨t, h, rfl⟩
  simp only [cstOf, dif_pos hx]
  have := Classical.choose_spec hx
  exact hS.num _ _ this.1 h (by exact_mod_cast this.2)

theorem prim13 {n : Nm} (h : n.ty = 7 ∨ n.ty = 13) : primOf true n = some (symbolOf n) := by
  rcases h with h | h
  · simp [primOf, symbolOf, h]
  · simp [primOf, symbolOf, h, anonOf_symbol]

theorem primF13 {n : Nm} (h : n.ty = 7 ∨ n.ty = 13) : primOf true (renameF n) = some (funSym n) := by
  unfold renameF funSym
  simp only [h, true_and]
  split
  · rfl
  · split
    · rfl
    · split
      · rfl
      · split
        · rfl
        · exact prim13 h

theorem symbols_ok (hS : Normal S) : Gkc.Js.Spec.Symbols (foOf S).str.fint := by
  refine ⟨fun p q hp hq e => ?_, fun f g hf hg e => ?_, ?_, ?_⟩
  · rw [prim13 hp, prim13 hq, Option.some.injEq] at e
    simp only [Str.fint, e]
  · rw [primF13 hf, primF13 hg, Option.some.injEq] at e
    simp only [Str.fint, e]
  · show S.pr (nameOf (symbolOf (anon "$true"))) []
    rw [symbolOf_anon, nameOf_anon]
    exact hS.tt
  · show ¬ S.pr (nameOf (symbolOf (anon "$false"))) []
    rw [symbolOf_anon, nameOf_anon]
    exact hS.ff

/-- the assignment with the values of all numerals -/
def adj (S : Gkc.Js.Spec.Str D) (τ : Nm → D) (n : Nm) : D := if n.ty = 3 ∨ n.ty = 4 then S.num n.ty n.str else τ n

theorem reads_ok (hS : Normal S) {τ : Nm → D} (hτ : (foOf S).str.Val exVar τ) :
    Gkc.Js.Spec.Reads (foOf S).str.fint (adj S τ) S (fun s => τ (uri s)) := by
  refine ⟨fun s => ?_, fun ty t h => ?_, fun s => ?_, fun s => ?_, fun s => ?_⟩
  · have : τ (anon s) = cstOf S (symbolOf (anon s)) := hτ (anon s) (by simp [isVar, anon])
    have e : adj S τ (anon s) = τ (anon s) := if_neg (by simp [anon])
    rw [symbolOf_anon, cstOf_anon] at this
    exact e.trans this
  · exact if_pos h
  · show S.fn (nameOf (funSym (anon s))) = S.fn s
    rw [funSym_arith (.inl rfl), nameOf_anon]
    exact hS.arith s
  · show S.pr (nameOf (symbolOf (anon s))) = S.pr s
    rw [symbolOf_anon, nameOf_anon]
  · exact if_neg (by simp [uri])

theorem holds_adj (hS : Normal S) {τ : Nm → D} (hτ : (foOf S).str.Val exVar τ) {U : Use → Prop} {f : Frm} (hc : ∀ n, nameIn n f → Cls U n) :
    (foOf S).str.fint.holds (adj S τ) f ↔ (foOf S).str.fint.holds τ f := by
  refine holds_congr' f fun n hn => ?_
  by_cases hy : n.ty = 3 ∨ n.ty = 4
  · refine (if_pos hy).trans ?_
    rcases hc n (.inl hn) with h | h | h | h
    · have := h.1; omega
    · have : τ n = cstOf S (symbolOf n) := hτ n (by simp [isVar, h.1])
      rw [this]
      simp only [symbolOf, h.1, if_true]
      exact (cstOf_num hS h.2.2.1).symm
    · have := h.1; omega
    · have := h.1; omega
  · exact if_neg hy

/-- there is an assignment -/
theorem exists_val (S : Gkc.Js.Spec.Str D) (v : String → D) : ∃ τ, (foOf S).str.Val exVar τ ∧ ∀ s, isVar exVar (uri s) = true → τ (uri s) = v s := by
  refine ⟨fun n => if isVar exVar n then v n.str else cstOf S (symbolOf n), fun n h => by simp only [h]; rfl, fun s h => by simp only [h, if_true]; rfl⟩

end

/-! ### Entries -/

/-- what becomes of a statement -/
structure Made (st : Stmt) (it : Item) (e : Entry) (g : G) (vs : List String) : Prop where
  loaded : Loaded st it
  done : Done (· ∈ st.fm.uses []) [] st.fm g
  nodup : vs.Nodup
  fv : ∀ x, x ∈ vs ↔ x ∈ st.fm.fv []
  frm : it.frm = wrap st.kind.role vs g.frm
  conj : it.conj = decide (st.kind = .conj)
  ent : e = match st.kind with
    | .axm => .item ⟨false, wrap .other vs g.frm⟩
    | .conj => .item ⟨true, wrap .other vs g.frm⟩
    | .quest => .ask (vs.map uri) g.frm

theorem made {st : Stmt} {it : Item} (h : Loaded st it) (hf : WF [] st.fm) : ∃ e g vs, Made st it e g vs := by
  have hl := h
  obtain ⟨hc, j, ⟨n, hn⟩, hr⟩ := h
  obtain ⟨g, vs, hg, nd, mem, h⟩ := formula_ok (U := (· ∈ st.fm.uses [])) st.fm hf fun _ h => h
  obtain ⟨j', ⟨n', hn'⟩, hr'⟩ := h st.kind.role
  have := (hn (max n n') (Nat.le_max_left _ _)).symm.trans (hn' (max n n') (Nat.le_max_right _ _))
  cases this
  rw [hr, Option.some.injEq] at hr'
  exact ⟨_, g, vs, hl, hg, nd, mem, hr', hc, rfl⟩

section
variable {st : Stmt} {it : Item} {e : Entry} {g : G} {vs : List String}

theorem Made.prepared (h : Made st it e g vs) : e.toItem.prepared = it.prepared := by
  have h1 := h.frm
  have h2 := h.conj
  have h3 := h.ent
  subst h3
  obtain ⟨k, f⟩ := st
  cases k
  · simp only [Kind.role] at h1
    simp [Entry.toItem, Item.prepared, h1, h2]
  · simp only [Kind.role] at h1
    simp [Entry.toItem, Item.prepared, h1, h2]
  · simp only [Kind.role, wrap] at h1
    cases vs with
    | nil => simp [Entry.toItem, Item.prepared, h1, h2]
    | cons v vs => simp [Entry.toItem, Item.prepared, h1, h2]

theorem Made.adm {rl : String → SRole} (h : Made st it e g vs) (hS : Sig rl) (hk : ∀ u ∈ st.fm.uses [], Keeps rl u) (hA : Apart st.fm) :
    Adm exVar (sgOf rl) e.toItem.frm ∧ NoAns e := by
  have a := adm_wrap hS hk hA h.done h.fv
  have s0 : VSc [] := by intro s hs; cases hs
  have na := noans_G (g := g) hS hk h.done.out h.done.pl
  have nw : NoPred "$ans" (wrap .other vs g.frm) := by
    intro n hn
    refine na n ?_
    simp only [wrap] at hn
    split at hn
    · exact hn
    · exact hn
  have h3 := h.ent
  subst h3
  obtain ⟨k, f⟩ := st
  cases k
  · exact ⟨a .other, nw⟩
  · exact ⟨a .other, nw⟩
  · refine ⟨?_, na⟩
    cases vs with
    | nil => exact a .other
    | cons v vs =>
      have := a .question
      simpa [wrap, Entry.toItem, Function.comp_def] using this

end

theorem clausifies_congr {c : VarCfg} {strat : Bool} {fuel sn nr : Nat} {items : List Item} {fcs : List FCl} (h : Clausifies c strat fuel sn nr items fcs) :
    ∀ {items' : List Item}, items'.map Item.prepared = items.map Item.prepared → Clausifies c strat fuel sn nr items' fcs := by
  induction h with
  | nil =>
    intro items' e
    rw [List.map_nil, List.map_eq_nil_iff] at e
    subst e
    exact .nil
  | one h hf _ ih =>
    intro items' e
    cases items' with
    | nil => simp at e
    | cons it its =>
      simp only [List.map_cons, List.cons.injEq] at e
      exact .one (by rw [e.1]; exact h) hf (ih e.2)
  | skip hs hn _ ih =>
    intro items' e
    cases items' with
    | nil => simp at e
    | cons it its =>
      simp only [List.map_cons, List.cons.injEq] at e
      exact .skip hs hn (ih e.2)

/-! ### The main theorems -/

/-- what becomes of a problem -/
theorem made_all {rl : String → SRole} {P : List Stmt} {items : List Item} (hP : Fine rl P) (hl : List.Forall₂ Loaded P items) :
    ∃ es : List Entry, es.map (fun e => e.toItem.prepared) = items.map Item.prepared ∧
      ∀ e ∈ es, ∃ st ∈ P, ∃ it ∈ items, ∃ g vs, Made st it e g vs := by
  have wf := hP.wf
  clear hP
  induction hl with
  | nil => exact ⟨[], rfl, by simp⟩
  | @cons st it P items h _ ih =>
    obtain ⟨e, g, vs, hm⟩ := made h (wf st (by simp))
    obtain ⟨es, h1, h2⟩ := ih fun st hs => wf st (by simp [hs])
    refine ⟨e :: es, by simp [hm.prepared, h1], fun e' he => ?_⟩
    rcases List.mem_cons.1 he with rfl | he
    · exact ⟨st, by simp, it, by simp, g, vs, hm⟩
    · obtain ⟨st, hs, it, hi, r⟩ := h2 e' he
      exact ⟨st, by simp [hs], it, by simp [hi], r⟩

section
variable {D : Type} {S : Gkc.Js.Spec.Str D} {rl : String → SRole} {st : Stmt} {it : Item} {e : Entry} {g : G} {vs : List String}

/-- a formula that is made means what the statement means -/
theorem Made.holds (h : Made st it e g vs) (hk : ∀ u ∈ st.fm.uses [], Keeps rl u) (hS : Normal S) {τ : Nm → D} (hτ : (foOf S).str.Val exVar τ) :
    (foOf S).str.fint.holds τ g.frm ↔ S.means [] (fun s => τ (uri s)) st.fm := by
  have s0 : VSc [] := by intro s hs; cases hs
  rw [← holds_adj hS hτ (cls_G (rl := rl) hk g s0 h.done.out h.done.pl)]
  exact h.done.sem (symbols_ok hS) (reads_ok hS hτ)

/-- the same with the quantifiers for its free variables -/
theorem Made.holds_all (h : Made st it e g vs) (hk : ∀ u ∈ st.fm.uses [], Keeps rl u) (hS : Normal S) {τ : Nm → D} (hτ : (foOf S).str.Val exVar τ) :
    (foOf S).str.fint.holds τ (wrap .other vs g.frm) ↔ True_ S st.fm := by
  rw [← holds_adj hS hτ (cls_wrap (rl := rl) hk h.done h.fv .other), wrap_meaning h.done vs .other (symbols_ok hS) (reads_ok hS hτ)]
  refine ⟨fun H v => ?_, fun H v _ => H v⟩
  have := H (fun s => if s ∈ vs then v s else τ (uri s)) fun s hs => if_neg hs
  refine (means_congr st.fm (sc := []) (by simp) fun s hs => ?_).1 this
  exact if_pos ((h.fv s).2 hs)

theorem Made.goal (h : Made st it e g vs) (hk : ∀ u ∈ st.fm.uses [], Keeps rl u) (hS : Normal S) {τ : Nm → D} (hτ : (foOf S).str.Val exVar τ)
    {q : Frm} (hq : IsGoal e q) (ht : (foOf S).str.fint.holds τ q) : Goal st ∧ True_ S st.fm := by
  have he := h.ent
  rcases hq with hq | hq
  · rw [hq] at he
    cases hkd : st.kind with
    | axm => rw [hkd] at he; simp at he
    | quest => rw [hkd] at he; simp at he
    | conj =>
      rw [hkd] at he
      simp only [Entry.item.injEq, Item.mk.injEq, true_and] at he
      subst he
      exact ⟨.inl hkd, (h.holds_all hk hS hτ).1 ht⟩
  · rw [hq] at he
    cases hkd : st.kind with
    | axm => rw [hkd] at he; simp at he
    | conj => rw [hkd] at he; simp at he
    | quest =>
      rw [hkd] at he
      simp only [Entry.ask.injEq] at he
      obtain ⟨h1, rfl⟩ := he
      have hv : vs = [] := by simpa using h1.symm
      have hf : st.fm.fv [] = [] := by
        refine List.eq_nil_iff_forall_not_mem.2 fun x hx => ?_
        have := (h.fv x).2 hx
        rw [hv] at this
        cases this
      refine ⟨.inr ⟨hkd, hf⟩, fun v => ?_⟩
      refine (means_congr st.fm (sc := []) (by simp) fun s hs => ?_).1 ((h.holds hk hS hτ).1 ht)
      rw [hf] at hs
      cases hs

theorem foOf_eq (hS : Normal S) (a b : D) : (foOf S).pr (.sym "=") [a, b] ↔ a = b := hS.eq a b

/-- the axioms are true in the structure of the symbols -/
theorem axioms_true {P : List Stmt} {items : List Item} {es : List Entry} (hP : Fine rl P)
    (hm : ∀ e ∈ es, ∃ st ∈ P, ∃ it ∈ items, ∃ g vs, Made st it e g vs) (hS : Normal S) (hax : ∀ st ∈ P, st.kind = .axm → True_ S st.fm) (f : Frm)
    (hf : Entry.item ⟨false, f⟩ ∈ es) : Sat exVar (foOf S).str f := by
  obtain ⟨st, hs, it, _, g, vs, h⟩ := hm _ hf
  intro τ hτ
  have he := h.ent
  cases hkd : st.kind with
  | conj => rw [hkd] at he; simp at he
  | quest => rw [hkd] at he; simp at he
  | axm =>
    rw [hkd] at he
    simp only [Entry.item.injEq, Item.mk.injEq, true_and] at he
    subst he
    exact (h.holds_all (hP.keeps st hs) hS hτ).2 (hax st hs hkd)
end

/-- **C57** (partial).  A problem is read from JSON, turned into clauses, and the loop reports a refutation.  Then in every
structure as described in which all axioms of the problem are true, some conjecture of it, or some question without variables, is true.
Missing: as in C40, numbers other than integers, and what is not in the language of C56. -/
theorem C57_proof_means_consequence_partial {rl : String → SRole} {P : List Stmt} {items : List Item} (hP : Fine rl P) (hl : List.Forall₂ Loaded P items)
    {strat : Bool} {fuel sn nr : Nat} {fcs : List FCl} (hc : Clausifies ⟨true, true⟩ strat fuel sn nr items fcs) (wd : Const → Int) (hh m : Term → Nat)
    (input : List (List ALit)) (hi : ∀ cl ∈ input, ∃ fc ∈ fcs, ∃ ls, buildCl ⟨true, true⟩ fc = some ls ∧ NewCl ls cl) (s : PState)
    (h : Run ⟨some, wd, hh, m⟩ ShortActive input s) (hs : s.refuted = true)
    {D : Type} (S : Gkc.Js.Spec.Str D) (hS : Normal S) (hax : ∀ st ∈ P, st.kind = .axm → True_ S st.fm) :
    ∃ st ∈ P, Goal st ∧ True_ S st.fm := by
  obtain ⟨es, hprep, hm⟩ := made_all hP hl
  obtain ⟨d0, d1, hd⟩ := hS.two
  have hc' : Clausifies exVar strat fuel sn nr (es.map Entry.toItem) fcs := clausifies_congr hc (by rw [List.map_map]; exact hprep)
  have ha : ∀ e ∈ es, Adm exVar (sgOf rl) e.toItem.frm ∧ NoAns e := by
    intro e he
    obtain ⟨st, hs, it, _, g, vs, h⟩ := hm e he
    exact h.adm hP.sig (hP.keeps st hs) (hP.apart st hs)
  obtain ⟨e, he, q, hq, τ, hτ, ht⟩ := C50_proof_without_answer_partial (sgOf rl) (hP.sig.fresh sn nr) (sgOf_sym hP.sig.pr) hP.sig.true_ Sig.num
    (fun e he => (ha e he).1) (fun e he => (ha e he).2) hc' wd hh m input hi s h hs (foOf S) (foOf_eq hS) hS.tt hS.ff d0 d1 hd
    (axioms_true hP hm hS hax)
  obtain ⟨st, hst, it, _, g, vs, hmade⟩ := hm e he
  exact ⟨st, hst, hmade.goal (hP.keeps st hst) hS hτ hq ht⟩

/-- **C57** (partial).  The same for an answer: in every structure as described in which all axioms are true, some conjecture or question
without variables is true, or the answer is right: the Skolem functions can be given a meaning such that, whatever the variables of
the answer stand for, one of its literals `$ans(t1,...)` gives values for the variables of a question, in the order in which they
stand in the stored question, that make the question true.  Missing: as above. -/
theorem C57_answers_are_answers_partial {rl : String → SRole} {P : List Stmt} {items : List Item} (hP : Fine rl P) (hl : List.Forall₂ Loaded P items)
    {strat : Bool} {fuel sn nr : Nat} {fcs : List FCl} (hc : Clausifies ⟨true, true⟩ strat fuel sn nr items fcs) (wd : Const → Int) (hh m : Term → Nat)
    (input : List (List ALit)) (hi : ∀ cl ∈ input, ∃ fc ∈ fcs, ∃ ls, buildCl ⟨true, true⟩ fc = some ls ∧ NewCl ls cl) (s : PState)
    (h : Run ⟨some, wd, hh, m⟩ ShortActive input s) (cl : List Gkc.Lit) (hcl : cl ∈ s.answers)
    {D : Type} (S : Gkc.Js.Spec.Str D) (hS : Normal S) (hax : ∀ st ∈ P, st.kind = .axm → True_ S st.fm) :
    (∃ st ∈ P, Goal st ∧ True_ S st.fm) ∨
    ∃ T : Str D, Expands (New sn nr) (sgOf rl) (foOf S) T ∧ ∀ ρ : Nat → D, ∃ ts, ⟨false, .app (.sym "$ans") ts⟩ ∈ cl ∧
      ∃ st ∈ P, st.kind = .quest ∧ ∃ (vs : List String) (q : Frm), vs ≠ [] ∧ (∀ x, x ∈ vs ↔ x ∈ st.fm.fv []) ∧
        (∃ it ∈ items, Loaded st it ∧ it.frm = .all (vs.map uri) (.imp [q, .at (.app (uri "$ans") (vs.map fun s => .nm (uri s)))])) ∧
        ∃ v, vs.map v = T.vals ρ ts ∧ S.means [] v st.fm := by
  by_cases goal : ∃ st ∈ P, Goal st ∧ True_ S st.fm
  · exact .inl goal
  refine .inr ?_
  obtain ⟨es, hprep, hm⟩ := made_all hP hl
  obtain ⟨d0, d1, hd⟩ := hS.two
  have hc' : Clausifies exVar strat fuel sn nr (es.map Entry.toItem) fcs := clausifies_congr hc (by rw [List.map_map]; exact hprep)
  have ha : ∀ e ∈ es, Adm exVar (sgOf rl) e.toItem.frm ∧ NoAns e := by
    intro e he
    obtain ⟨st, hs, it, _, g, vs, h⟩ := hm e he
    exact h.adm hP.sig (hP.keeps st hs) (hP.apart st hs)
  have ng : ∀ e ∈ es, ∀ q, IsGoal e q → ∀ τ, (foOf S).str.Val exVar τ → ¬ (foOf S).str.fint.holds τ q := by
    intro e he q hq τ hτ ht
    obtain ⟨st, hst, it, _, g, vs, hmade⟩ := hm e he
    exact goal ⟨st, hst, hmade.goal (hP.keeps st hst) hS hτ hq ht⟩
  rcases C50_answers_are_answers_partial (sgOf rl) (hP.sig.fresh sn nr) (sgOf_sym hP.sig.pr) hP.sig.true_ Sig.num
    (fun e he => (ha e he).1) (fun e he => (ha e he).2) hc' wd hh m input hi s h cl hcl (foOf S) (foOf_eq hS) hS.tt hS.ff d0 d1 hd
    (axioms_true hP hm hS hax) with ⟨e, he, q, hq, τ, hτ, ht⟩ | ⟨T, hT, hans⟩
  · exact absurd ht (ng e he q hq τ hτ)
  refine ⟨T, hT, fun ρ => ?_⟩
  obtain ⟨ts, hts, fv, q, he, τ, hτ, hv, ht⟩ := hans ρ
  refine ⟨ts, hts, ?_⟩
  obtain ⟨st, hst, it, hit, g, vs, hmade⟩ := hm _ he
  have hne : fv ≠ [] := by
    rintro rfl
    exact ng _ he q (.inr rfl) τ hτ ht
  have hent := hmade.ent
  cases hkd : st.kind with
  | axm => rw [hkd] at hent; simp at hent
  | conj => rw [hkd] at hent; simp at hent
  | quest =>
    rw [hkd] at hent
    simp only [Entry.ask.injEq] at hent
    obtain ⟨rfl, rfl⟩ := hent
    have hvs : vs ≠ [] := by rintro rfl; exact hne rfl
    refine ⟨st, hst, hkd, vs, g.frm, hvs, hmade.fv, ⟨it, hit, hmade.loaded, ?_⟩, fun s => τ (uri s), ?_, (hmade.holds (hP.keeps st hst) hS hτ).1 ht⟩
    · rw [hmade.frm, hkd]
      cases vs with
      | nil => exact absurd rfl hvs
      | cons v vs => simp [wrap, Kind.role]
    · exact (List.map_map (f := uri) (g := τ) (l := vs)).symm.trans hv

/-- **C57**.  Every problem as described is read: the reader gives something to the clausifier for each statement. -/
theorem C57_every_problem_is_read {rl : String → SRole} {P : List Stmt} (hP : Fine rl P) : ∃ items, List.Forall₂ Loaded P items := by
  have wf := hP.wf
  clear hP
  induction P with
  | nil => exact ⟨[], .nil⟩
  | cons st P ih =>
    obtain ⟨items, h⟩ := ih fun st hs => wf st (by simp [hs])
    obtain ⟨g, vs, -, -, -, hr⟩ := formula_ok (U := (· ∈ st.fm.uses [])) st.fm (wf st (by simp)) fun _ h => h
    obtain ⟨j, hn, hj⟩ := hr st.kind.role
    exact ⟨⟨decide (st.kind = .conj), _⟩ :: items, .cons ⟨rfl, j, hn, hj⟩ h⟩

/-! ### A case -/

/-- `["p","a"]`, `["forall",["X"],[["q","X"],"|",["-p","X"]]]`, question `["q","?:Y"]` -/
def askJson : List Stmt :=
  [⟨.axm, .atom "p" [.name "a"]⟩, ⟨.axm, .quant "forall" ["X"] (.many "|" false [.atom "q" [.name "X"], .natom '-' "p" [.name "X"]])⟩,
   ⟨.quest, .atom "q" [.name "?:Y"]⟩]

/-- the roles of the names in it -/
def jsRole (s : String) : SRole :=
  if s = "p" ∨ s = "q" ∨ s = "$ans" then .pred else if s = "$true" then .prop else if s = "a" then .cnst else .unused

def jsItems : List Item :=
  [⟨false, .at (.app (anon "p") [.nm (anon "a")])⟩,
   ⟨false, .all [uri "X"] (.or [.at (.app (anon "q") [.nm (uri "X")]), .neg (.at (.app (uri "p") [.nm (uri "X")]))])⟩,
   ⟨false, .all [uri "?:Y"] (.imp [.at (.app (anon "q") [.nm (uri "?:Y")]), .at (.app (uri "$ans") [.nm (uri "?:Y")])])⟩]

theorem jsRole_new {s : String} {c : Char} {t : List Char} (h : s.toList = '$' :: c :: 'k' :: t ∨ s.toList = '$' :: c :: 'f' :: t) : jsRole s = .unused := by
  unfold jsRole
  rw [if_neg, if_neg, if_neg]
  · rintro rfl; simp at h
  · rintro rfl; simp at h
  · rintro (rfl | rfl | rfl) <;> simp at h

theorem jsFine : Fine jsRole askJson := by
  have q : qvar "?:Y" = true := by decide
  have q' : qvar "a" = false := by decide
  refine ⟨⟨by decide, by decide, by decide, fun k => ?_, fun k => ?_⟩, ?_, ?_, ?_⟩
  · exact jsRole_new (t := (toString k).toList) (.inl (by simp [String.toList_append]; rfl))
  · exact jsRole_new (t := (toString k).toList) (.inr (by simp [String.toList_append]; rfl))
  · intro st h
    simp only [askJson, List.mem_cons, List.not_mem_nil, or_false] at h
    rcases h with rfl | rfl | rfl <;>
    simp only [WF, Gkc.Js.Spec.WFL, Gkc.Js.Spec.WFT, Gkc.Js.Spec.WFTL, Gkc.Js.Spec.Pred, Gkc.Js.Spec.Fun, Gkc.Js.Spec.Name, Gkc.Js.Spec.Plain, ne_eq,
      reduceCtorEq, not_false_eq_true, true_and] <;> decide +kernel
  · intro st h u hu
    simp only [askJson, List.mem_cons, List.not_mem_nil, or_false] at h
    rcases h with rfl | rfl | rfl <;>
      simp [Fm.uses, Gkc.Js.Spec.usesL, Tm.uses, Gkc.Js.Spec.usesTL, q, q'] at hu
    · rcases hu with rfl | rfl <;> simp [Keeps, jsRole]
    · rcases hu with rfl | rfl | rfl | rfl | rfl <;> simp [Keeps, jsRole]
    · rcases hu with rfl | rfl <;> simp [Keeps, jsRole]
  · intro st h s hs
    simp only [askJson, List.mem_cons, List.not_mem_nil, or_false] at h
    rcases h with rfl | rfl | rfl <;> simp [Fm.uses, Gkc.Js.Spec.usesL, Tm.uses, Gkc.Js.Spec.usesTL, q, q'] at hs ⊢
    · subst hs; decide
    · subst hs; decide

theorem loaded_of {st : Stmt} {it : Item} (hc : it.conj = decide (st.kind = .conj)) (j : Gkc.Js.Jv)
    (h : ∀ k, formula (k + 20) st.kind.role st.fm.json = .ok j) (hr : readF j = some it.frm) : Loaded st it := by
  refine ⟨hc, j, ⟨20, fun k hk => ?_⟩, hr⟩
  obtain ⟨k, rfl⟩ := Nat.exists_eq_add_of_le' hk
  exact h k

theorem jsLoaded : List.Forall₂ Loaded askJson jsItems := by
  refine .cons (loaded_of rfl (.list [.atom (anon "p"), .atom (anon "a")]) (fun k => rfl) rfl) ?_
  refine .cons (loaded_of rfl (.list [.atom (anon "all"), .list [.atom (uri "X")], .list [.atom (anon "or"), .list [.atom (anon "q"), .atom (uri "X")],
    .list [.atom (anon "not"), .list [.atom (uri "p"), .atom (uri "X")]]]]) (fun k => rfl) rfl) ?_
  exact .cons (loaded_of rfl (.list [.atom (anon "all"), .list [.atom (uri "?:Y")], .list [.atom (anon "imp"), .list [.atom (anon "q"), .atom (uri "?:Y")],
    .list [.atom (uri "$ans"), .atom (uri "?:Y")]]]) (fun k => rfl) rfl) .nil

/-- their clauses -/
def jsFcs : List FCl :=
  [.lits [.at (.app (anon "p") [.nm (anon "a")])], .lits [.neg (.at (.app (uri "p") [.nm ⟨14, "X1"⟩])), .at (.app (anon "q") [.nm ⟨14, "X1"⟩])],
   .lits [.at (.app (uri "$ans") [.nm ⟨14, "X1"⟩]), .neg (.at (.app (anon "q") [.nm ⟨14, "X1"⟩]))]]

theorem jsClausifies : Clausifies exVar true 9 0 0 jsItems jsFcs := by
  refine .one (cs := [.lits [.at (.app (anon "p") [.nm (anon "a")])]]) (g := .at (.app (anon "p") [.nm (anon "a")])) rfl (by simp [flat, flatOr]) ?_
  refine .one (cs := [.lits [.neg (.at (.app (uri "p") [.nm ⟨14, "X1"⟩])), .at (.app (anon "q") [.nm ⟨14, "X1"⟩])]])
    (g := .or [.neg (.at (.app (uri "p") [.nm ⟨14, "X1"⟩])), .at (.app (anon "q") [.nm ⟨14, "X1"⟩])])
    (by rfl) (by simp [flat, flatOr, truthOf]) ?_
  exact .one (cs := [.lits [.at (.app (uri "$ans") [.nm ⟨14, "X1"⟩]), .neg (.at (.app (anon "q") [.nm ⟨14, "X1"⟩]))]])
    (g := .or [.at (.app (uri "$ans") [.nm ⟨14, "X1"⟩]), .neg (.at (.app (anon "q") [.nm ⟨14, "X1"⟩]))])
    (by rfl) (by simp [flat, flatOr, truthOf]) .nil

theorem jsBuilt : ∀ cl ∈ askInput, ∃ fc ∈ jsFcs, ∃ ls, buildCl exVar fc = some ls ∧ NewCl ls cl := by
  intro cl h
  simp only [askInput, List.mem_cons, List.not_mem_nil, or_false] at h
  rcases h with rfl | rfl | rfl
  · exact ⟨_, .head _, _, by rfl, by rfl, by simp [Sep]⟩
  · exact ⟨_, .tail _ (.head _), _, by rfl, by rfl, by simp [Sep]⟩
  · exact ⟨_, .tail _ (.tail _ (.head _)), _, by rfl, by rfl, by simp [Sep]⟩

/-- the problem meets the hypotheses, and so `q(a)` follows from its axioms -/
example {D : Type} (S : Gkc.Js.Spec.Str D) (hS : Normal S) (hax : ∀ st ∈ askJson, st.kind = .axm → True_ S st.fm) : S.pr "q" [S.cst "a"] := by
  obtain ⟨s, r, hs⟩ := askRun
  obtain ⟨d0, -⟩ := hS.two
  rcases C57_answers_are_answers_partial jsFine jsLoaded jsClausifies _ _ _ askInput jsBuilt s r _ hs S hS hax with ⟨st, hm, hg, -⟩ | ⟨T, x, k⟩
  · exfalso
    simp only [askJson, List.mem_cons, List.not_mem_nil, or_false] at hm
    have q : qvar "?:Y" = true := by decide
    rcases hm with rfl | rfl | rfl <;> rcases hg with hg | ⟨hg, h⟩ <;> cases hg
    simp [Fm.fv, Gkc.Js.Spec.fvTL, Gkc.Js.Spec.fvT, q] at h
  · obtain ⟨ts, ht, st, hm, hkd, vs, q, hne, hfv, -, v, hv, h⟩ := k (fun _ => d0)
    simp only [ap, List.mem_singleton, Lit.mk.injEq, Term.app.injEq, true_and] at ht
    subst ht
    simp only [askJson, List.mem_cons, List.not_mem_nil, or_false] at hm
    rcases hm with rfl | rfl | rfl <;> cases hkd
    have qv : qvar "?:Y" = true := by decide
    have ha := (x (.sym "a") (by
      intro s hs e
      have f := jsFine.sig.fresh 0 0 s hs
      rw [← e] at f
      revert f
      decide)).1 (by decide)
    simp only [Str.vals, Str.fo, cn, FO.evalL, FO.eval, ha] at hv
    simp only [Gkc.Js.Spec.Str.means, Gkc.Js.Spec.Str.evL, Gkc.Js.Spec.Str.ev, qv, true_or, if_true] at h
    cases vs with
    | nil => cases hv
    | cons y vs =>
      have hy : y = "?:Y" := by
        have := (hfv y).1 (by simp)
        simpa [Fm.fv, Gkc.Js.Spec.fvTL, Gkc.Js.Spec.fvT, qv] using this
      subst hy
      have hv := (List.cons.inj hv).1
      rw [hv] at h
      exact h

end Gkc.Props.Js
