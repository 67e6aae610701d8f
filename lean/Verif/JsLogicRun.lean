import Verif.JsLogicLemmas
import Verif.FrmLemmas
/-
What wr_process_json_formula makes of the formulas of JsLogicSpec.lean.
-/
namespace Gkc.Js
open Gkc.Clausify (Nm FT Frm uri FInt primOf renameF Variant)
open Spec (reserved Tm Fm Str Name Fun Pred WFT WFTL WF WFL render renderL jsonL Symbols Reads Use usesTL usesL)

/-! ### Heads stored as uris -/

/-- how a name that is a term is used -/
def useOf (n : Nm) : Use := if n.ty = 3 ∨ n.ty = 4 then .num n.ty n.str else if n.ty = 7 then .var n.str else .cst n.str

mutual
/-- heads stored as uris are the arithmetic operators; the uses of names are in `U` -/
def PlT (U : Use → Prop) : FT → Prop
  | .nm n => U (useOf n)
  | .app f as => ((f.ty = 13 ∨ f.ty = 7 ∧ f.str ∈ ["+", "*", "-", "/"]) ∧ U (.fn f.str)) ∧ PlTL U as
/-- the same for several -/
def PlTL (U : Use → Prop) : List FT → Prop
  | [] => True
  | a :: as => PlT U a ∧ PlTL U as
end

/-- heads of atoms stored as uris are the same symbols as the anonymous constants; the uses of names are in `U` -/
def PlG (U : Use → Prop) : G → Prop
  | .pr n => U (.prop n.str)
  | .at p as => ((p.ty = 13 ∨ p.ty = 7 ∧ Spec.Plain p.str) ∧ U (.pr p.str)) ∧ PlTL U as
  | .neg g => PlG U g
  | .bin _ a b => PlG U a ∧ PlG U b
  | .qu _ vs g => (∀ s ∈ vs, U (.var s)) ∧ PlG U g

theorem nm13 {f : Nm} (h : f.ty = 13) : f = anon f.str := by
  cases f
  simp only at h
  subst h
  rfl

theorem nm7 {f : Nm} (h : f.ty = 7) : f = uri f.str := by
  cases f
  simp only at h
  subst h
  rfl

section
variable {U : Use → Prop} {D : Type} {I : FInt D}

mutual
theorem ev_norm (hI : Symbols I) (ρ : Nm → D) : ∀ (u : FT), PlT U u → I.ev ρ (normT u) = I.ev ρ u
  | .nm n, _ => rfl
  | .app f as, h => by
    simp only [normT, FInt.ev]
    rw [evL_norm hI ρ as h.2]
    refine congrFun (hI.fn _ _ (.inr rfl) (h.1.1.elim .inr fun h => .inl h.1) ?_) _
    rcases h.1.1 with h | ⟨h, h'⟩
    · rw [← nm13 h]
    · rw [nm7 h]
      simp only [List.mem_cons, List.not_mem_nil, or_false] at h'
      rcases h' with e | e | e | e <;> rw [e] <;> decide +kernel
theorem evL_norm (hI : Symbols I) (ρ : Nm → D) : ∀ (us : List FT), PlTL U us → I.evL ρ (normTL us) = I.evL ρ us
  | [], _ => rfl
  | u :: us, h => by
    simp only [normTL, FInt.evL]
    rw [ev_norm hI ρ u h.1, evL_norm hI ρ us h.2]
end

theorem holds_imp2 {a b : Frm} {ρ : Nm → D} : I.holds ρ (.imp [a, b]) ↔ (I.holds ρ a → I.holds ρ b) := by
  simp [FInt.holds, FInt.holdsImp]

theorem holds_norm (hI : Symbols I) : ∀ (g : G) (ρ : Nm → D), PlG U g → (I.holds ρ g.norm.frm ↔ I.holds ρ g.frm)
  | .pr n, _, _ => Iff.rfl
  | .at p as, ρ, h => by
    simp only [G.norm, G.frm, FInt.holds, FInt.atom]
    rw [evL_norm hI ρ as h.2]
    refine iff_of_eq (congrFun (hI.pr _ _ (.inr rfl) (h.1.1.elim .inr fun h => .inl h.1) ?_) _)
    rcases h.1.1 with h | ⟨h, h'⟩
    · rw [← nm13 h]
    · rw [nm7 h]
      exact h'.symm
  | .neg g, ρ, h => by
    simp only [G.norm, G.frm, FInt.holds]
    rw [holds_norm hI g ρ h]
  | .bin .and a b, ρ, h => by
    simp only [G.norm, G.frm, Gkc.Clausify.holds_and2]
    rw [holds_norm hI a ρ h.1, holds_norm hI b ρ h.2]
  | .bin .or a b, ρ, h => by
    simp only [G.norm, G.frm, Gkc.Clausify.holds_or2]
    rw [holds_norm hI a ρ h.1, holds_norm hI b ρ h.2]
  | .bin .imp a b, ρ, h => by
    simp only [G.norm, G.frm, holds_imp2]
    rw [holds_norm hI a ρ h.1, holds_norm hI b ρ h.2]
  | .bin .eqv a b, ρ, h => by
    simp only [G.norm, G.frm, FInt.holds]
    rw [holds_norm hI a ρ h.1, holds_norm hI b ρ h.2]
  | .qu true vs g, ρ, h => by
    simp only [G.norm, G.frm, FInt.holds]
    exact forall_congr' fun ρ' => imp_congr_right fun _ => holds_norm hI g ρ' h.2
  | .qu false vs g, ρ, h => by
    simp only [G.norm, G.frm, FInt.holds]
    exact exists_congr fun ρ' => and_congr_right fun _ => holds_norm hI g ρ' h.2
end

mutual
theorem PlT_norm : ∀ (u : FT), PlT U u → PlT U (normT u)
  | .nm _, h => h
  | .app _ as, h => ⟨⟨.inl rfl, h.1.2⟩, PlTL_norm as h.2⟩
theorem PlTL_norm : ∀ (us : List FT), PlTL U us → PlTL U (normTL us)
  | [], _ => trivial
  | u :: us, h => ⟨PlT_norm u h.1, PlTL_norm us h.2⟩
end

theorem PlG_norm : ∀ (g : G), PlG U g → PlG U g.norm
  | .pr _, h => h
  | .at _ as, h => ⟨⟨.inl rfl, h.1.2⟩, PlTL_norm as h.2⟩
  | .neg g, h => PlG_norm g h
  | .bin _ a b, h => ⟨PlG_norm a h.1, PlG_norm b h.2⟩
  | .qu _ _ g, h => ⟨h.1, PlG_norm g h.2⟩

theorem HeadOk.anon {sc : List String} {f : Nm} (h : HeadOk sc f) : HeadOk sc (anon f.str) :=
  ⟨.inr rfl, h.ne, h.typ, h.qq, h.q, h.sc⟩

mutual
theorem OutT_norm {sc : List String} : ∀ (u : FT), OutT sc u → OutT sc (normT u)
  | .nm _, h => h
  | .app _ as, h => ⟨h.1.anon, h.2.1, OutTL_norm as h.2.2⟩
theorem OutTL_norm {sc : List String} : ∀ (us : List FT), OutTL sc us → OutTL sc (normTL us)
  | [], _ => trivial
  | u :: us, h => ⟨OutT_norm u h.1, OutTL_norm us h.2⟩
end

theorem norm_length : ∀ (us : List FT), (normTL us).length = us.length
  | [] => rfl
  | _ :: us => by simp [normTL, norm_length us]

theorem OutG_norm : ∀ (g : G) {sc : List String}, OutG sc g → OutG sc g.norm
  | .pr _, _, h => h
  | .at _ as, _, h => ⟨h.1.anon, h.2.1.imp id fun e => ⟨e.1, by rw [norm_length]; exact e.2⟩, OutTL_norm as h.2.2⟩
  | .neg g, _, h => OutG_norm g h
  | .bin _ a b, _, h => ⟨OutG_norm a h.1, OutG_norm b h.2⟩
  | .qu _ _ g, _, h => ⟨h.1, h.2.1, OutG_norm g h.2.2⟩

mutual
theorem fvT_norm {sc : List String} : ∀ (u : FT), fvT sc (normT u) = fvT sc u
  | .nm _ => rfl
  | .app _ as => by simp only [normT, fvT, fvTL_norm as]
theorem fvTL_norm {sc : List String} : ∀ (us : List FT), fvTL sc (normTL us) = fvTL sc us
  | [] => rfl
  | u :: us => by simp only [normTL, fvTL, fvT_norm u, fvTL_norm us]
end

theorem fvG_norm : ∀ (g : G) (sc : List String), fvG sc g.norm = fvG sc g
  | .pr _, _ => rfl
  | .at _ as, _ => by simp only [G.norm, fvG, fvTL_norm as]
  | .neg g, sc => by simp only [G.norm, fvG, fvG_norm g]
  | .bin _ a b, sc => by simp only [G.norm, fvG, fvG_norm a, fvG_norm b]
  | .qu _ _ g, sc => by simp only [G.norm, fvG, fvG_norm g]

/-! ### Terms -/

theorem isQ_qvar (s : String) : isQ s = Spec.qvar s := by
  have key : ∀ l : List Char, (match l with
      | '?' :: ':' :: _ :: _ => true
      | _ => false) = decide (l.take 2 = ['?', ':'] ∧ 2 < l.length) := by
    intro l
    split
    · simp
    · rename_i h
      symm
      apply decide_eq_false
      rintro ⟨e, e'⟩
      match l, e, e', h with
      | a :: b :: c :: r, e, _, h =>
        have e : [a, b] = ['?', ':'] := e
        simp only [List.cons.injEq, and_true] at e
        exact h c r (by rw [e.1, e.2])
      | [_, _], _, e', _ => exact absurd e' (by simp)
      | [_], _, e', _ => exact absurd e' (by simp)
      | [], _, e', _ => exact absurd e' (by simp)
  exact key s.toList

theorem varName_spec {s : String} (h : Spec.qvar s ∨ Spec.capital s) : varName (.atom (uri s)) = some s := by
  rw [← isQ_qvar] at h
  have : varName (.atom (uri s)) = match s.toList with
      | [] => none
      | c :: _ => if isQ s ∨ 'A' ≤ c ∧ c ≤ 'Z' then some s else none := rfl
  rw [this]
  cases e : s.toList with
  | nil =>
    rcases h with h | h
    · simp [isQ, e] at h
    · simp [Spec.capital, e] at h
  | cons c r =>
    refine if_pos (h.imp id fun h => ?_)
    simpa [Spec.capital, e] using h

theorem fun_head {sc : List String} {s : String} (h : Fun sc s) {f : Nm} (hf : f = anon s ∨ f = uri s) : HeadOk sc f := by
  have es : f.str = s := by rcases hf with rfl | rfl <;> rfl
  have et : f.ty = 7 ∨ f.ty = 13 := by rcases hf with rfl | rfl <;> simp [anon, uri]
  refine ⟨et, es ▸ h.1.1, es ▸ h.1.2.2.1, es ▸ h.1.2.2.2, ?_, es ▸ h.2.2⟩
  rw [es, isQ_qvar]
  exact h.2.1

theorem elt_render {sc : List String} : ∀ {t : Tm}, WFT sc t → Elt (render t)
  | .name _, h => ⟨h.1, h.2.1⟩
  | .num _ _, h => h.2
  | .app _ _, _ => trivial
  | .arith _ _ _, _ => trivial

theorem elts_renderL {sc : List String} : ∀ {ts : List Tm}, WFTL sc ts → Elts (renderL ts)
  | [], _ => by intro x hx; cases hx
  | t :: ts, h => by
    intro x hx
    rcases List.mem_cons.1 hx with rfl | hx
    · exact elt_render h.1
    · exact elts_renderL h.2 x hx

/-- what becomes of a term -/
structure DoneT (U : Use → Prop) (sc : List String) (t : Tm) (u : FT) : Prop where
  out : OutT sc u
  pl : PlT U u
  fv : ∀ x, x ∈ fvT sc u ↔ x ∈ Spec.fvT sc t
  sem : ∀ {D : Type} {I : FInt D} {ρ : Nm → D} {S : Str D} {v : String → D}, Symbols I → Reads I ρ S v →
    I.ev ρ u = S.ev sc v t
  run : ∀ pos, pos ≠ 0 → Run sc (Spec.fvT sc t) (fun k st => term k st (render t) false pos) (jvT u)

/-- what becomes of several terms -/
structure DoneTL (U : Use → Prop) (sc : List String) (ts : List Tm) (us : List FT) : Prop where
  out : OutTL sc us
  pl : PlTL U us
  fv : ∀ x, x ∈ fvTL sc us ↔ x ∈ Spec.fvTL sc ts
  sem : ∀ {D : Type} {I : FInt D} {ρ : Nm → D} {S : Str D} {v : String → D}, Symbols I → Reads I ρ S v →
    I.evL ρ us = S.evL sc v ts
  run : ∀ pos, pos ≠ 0 → Run sc (Spec.fvTL sc ts) (fun k st => termL k st (renderL ts) pos) (jvTL us)

section
variable {U : Use → Prop} {sc : List String}

theorem tm_name {s : String} (h : Name s) (hu : ∀ x ∈ (Tm.name s).uses sc, U x) : ∃ u, DoneT U sc (.name s) u := by
  by_cases hv : isQ s = true ∨ s ∈ sc
  · refine ⟨.nm (uri s), ⟨h.1, h.2.1, .inr (.inr ⟨rfl, hv⟩)⟩, hu _ (by
      rw [isQ_qvar] at hv
      simp [Tm.uses, useOf, uri, hv]), fun x => ?_, fun {D I ρ S v} hI hR => ?_, fun pos hp => ?_⟩
    · simp [fvT, Spec.fvT, uri, isQ_qvar]
    · rw [isQ_qvar] at hv
      simp only [FInt.ev, Str.ev, if_pos hv]
      exact hR.var s
    · refine Run.fv (fun x => ?_) (term_f (body_atom (atom_var (n := uri s) rfl h.1 hv)))
      simp [fvT, Spec.fvT, uri, isQ_qvar]
  · have hv' := hv
    rw [not_or, Bool.not_eq_true] at hv'
    have hq := hv'.1
    rw [isQ_qvar] at hq
    refine ⟨.nm (anon s), ⟨h.1, h.2.1, .inr (.inl ⟨rfl, h.2.2.1⟩)⟩, hu _ (by simp [Tm.uses, useOf, anon, hq, hv'.2]), fun x => ?_, fun {D I ρ S v} hI hR => ?_, fun pos hp => ?_⟩
    · simp [fvT, Spec.fvT, anon, hq]
    · rw [isQ_qvar] at hv
      simp only [FInt.ev, Str.ev, if_neg hv]
      exact hR.cst s
    · refine Run.fv (fun x => ?_) (term_f (body_atom (atom_head (f := uri s) (fun_head ⟨h, hq, hv'.2⟩ (.inr rfl)))))
      simp [Spec.fvT, hq]

theorem arith_word {op : String} (h : op ∈ ["+", "*", "-", "/"]) : op ∈ reserved := by
  simp only [List.mem_cons, List.not_mem_nil, or_false] at h
  rcases h with rfl | rfl | rfl | rfl <;> decide

theorem tm_arith (hs : ScOk sc) {op : String} (ho : op ∈ ["+", "*", "-", "/"]) (hu : U (.fn op)) {a b : Tm} {ua ub : FT} (ha : DoneT U sc a ua) (hb : DoneT U sc b ub) :
    DoneT U sc (.arith op a b) (.app (uri op) [ua, ub]) := by
  refine ⟨⟨head_word hs (arith_word ho) (.inr rfl), .inr ho, ha.out, hb.out, trivial⟩, ⟨⟨.inr ⟨rfl, ho⟩, hu⟩, ha.pl, hb.pl, trivial⟩,
    fun x => ?_, fun {D I ρ S v} hI hR => ?_, fun pos hp => term_f ?_⟩
  · simp [fvT, fvTL, Spec.fvT, ha.fv, hb.fv]
  · simp only [FInt.ev, FInt.evL, Str.ev, ha.sem hI hR, hb.sem hI hR, ← hR.fn]
    refine congrFun (hI.fn _ _ (.inl rfl) (.inr rfl) ?_) _
    simp only [List.mem_cons, List.not_mem_nil, or_false] at ho
    rcases ho with rfl | rfl | rfl | rfl <;> decide +kernel
  · refine Run.two (ha.run 1 (by omega)) (hb.run 2 (by omega)) fun k st st1 st2 e1 e2 => ?_
    have : arithOp [Spec.str op, render b] = some (uri op) := by
      simp only [arithOp, Spec.str]
      rw [if_pos (by simpa [uri] using ho)]
    simp only [render, termBody, this, e1, e2, Except.bind]
    simp only [jvT, jvTL]

mutual
theorem tm_ok (hs : ScOk sc) : ∀ (t : Tm), WFT sc t → (∀ x ∈ t.uses sc, U x) → ∃ u, DoneT U sc t u
  | .name s, h, hu => tm_name h hu
  | .num ty txt, h, hu => by
    refine ⟨.nm ⟨ty, txt⟩, ⟨h.2.1, h.2.2, .inl h.1⟩, hu _ (by simp [Tm.uses, useOf, h.1]), fun x => ?_, fun {D I ρ S v} hI hR => ?_, fun pos hp => ?_⟩
    · have : ty ≠ 7 := by have := h.1; omega
      simp [fvT, Spec.fvT, this]
    · simp only [FInt.ev, Str.ev]
      exact hR.num _ _ h.1
    · exact term_f (body_atom (atom_num h.1 h.2.1 hp))
  | .app f as, h, hu => by
    obtain ⟨us, i⟩ := tm_okL hs as h.2 fun x m => hu x (List.mem_cons_of_mem _ m)
    have hh : ∀ g : Nm, g = anon f ∨ g = uri f → HeadOk sc g := fun g e => h.1.elim (fun h => fun_head h e) fun h => head_word hs (arith_word h) e
    refine ⟨.app (anon f) us, ⟨hh _ (.inl rfl), h.1.imp (fun h => h.1.2.1) id, i.out⟩, ⟨⟨.inl rfl, hu _ List.mem_cons_self⟩, i.pl⟩, i.fv, fun {D I ρ S v} hI hR => ?_, fun pos hp => ?_⟩
    · simp only [FInt.ev, Str.ev, i.sem hI hR, hR.fn]
    · refine term_f (body_f (elts_arith (elts_renderL h.2)) (list_run (f := uri f) (hh _ (.inr rfl)) (fun e => by cases e) ?_
        (i.run 1 (by omega))))
      constructor <;> intro e <;> rw [show f = _ from e] at h <;> rcases h.1 with h | h <;> first | exact h.1.2.1 (by decide) | exact absurd h (by decide)
  | .arith op a b, h, hu => by
    obtain ⟨ua, ia⟩ := tm_ok hs a h.2.1 fun x m => hu x (List.mem_cons_of_mem _ (List.mem_append_left _ m))
    obtain ⟨ub, ib⟩ := tm_ok hs b h.2.2 fun x m => hu x (List.mem_cons_of_mem _ (List.mem_append_right _ m))
    exact ⟨_, tm_arith hs h.1 (hu _ List.mem_cons_self) ia ib⟩
theorem tm_okL (hs : ScOk sc) : ∀ (ts : List Tm), WFTL sc ts → (∀ x ∈ usesTL sc ts, U x) → ∃ us, DoneTL U sc ts us
  | [], _, _ => ⟨[], trivial, trivial, fun x => Iff.rfl, fun _ _ => rfl, fun pos hp => termL_nil⟩
  | t :: ts, h, hu => by
    obtain ⟨u, i⟩ := tm_ok hs t h.1 fun x m => hu x (List.mem_append_left _ m)
    obtain ⟨us, j⟩ := tm_okL hs ts h.2 fun x m => hu x (List.mem_append_right _ m)
    refine ⟨u :: us, ⟨i.out, j.out⟩, ⟨i.pl, j.pl⟩, fun x => ?_, fun {D I ρ S v} hI hR => ?_, fun pos hp => ?_⟩
    · simp only [fvTL, Spec.fvTL, List.mem_append, i.fv, j.fv]
    · simp only [FInt.evL, Str.evL, i.sem hI hR, j.sem hI hR]
    · exact termL_cons (i.run pos hp) (j.run (pos + 1) (by omega))
end

/-! ### Formulas -/

/-- what becomes of a formula -/
structure Done (U : Use → Prop) (sc : List String) (f : Fm) (g : G) : Prop where
  out : OutG sc g
  pl : PlG U g
  fv : ∀ x, x ∈ fvG sc g ↔ x ∈ f.fv sc
  sem : ∀ {D : Type} {I : FInt D} {ρ : Nm → D} {S : Str D} {v : String → D}, Symbols I → Reads I ρ S v →
    (I.holds ρ g.frm ↔ S.means sc v f)
  elt : Elt f.json
  run : Run sc (f.fv sc) (fun k st => aux k st f.json) (jvG g)

/-- what becomes of several formulas -/
inductive DoneL (U : Use → Prop) (sc : List String) : List Fm → List G → Prop
  | nil : DoneL U sc [] []
  | cons {f : Fm} {g : G} {fs : List Fm} {gs : List G} (h : Done U sc f g) (t : DoneL U sc fs gs) : DoneL U sc (f :: fs) (g :: gs)

theorem neg_head {s : String} (h1 : s.toList.head? ≠ some '-') (h2 : s.toList.head? ≠ some '~') : negHead s = false := by
  simp only [negHead]
  split
  · rename_i e
    simp [e] at h1
  · rename_i e
    simp [e] at h2
  · rfl

theorem not_head {s : String} (h : s ∉ reserved) : s ∉ connectives ∧ s ∉ headWords := by
  refine ⟨fun e => h (conn_reserved e), fun e => h ?_⟩
  simp only [headWords, List.mem_cons, List.not_mem_nil, or_false] at e
  rcases e with rfl | rfl | rfl | rfl | rfl | rfl <;> decide

theorem render_ne {a : List Tm} (h : a ≠ []) : renderL a ≠ [] := by
  cases a with
  | nil => exact absurd rfl h
  | cons _ _ => simp [renderL]

theorem fm_atom {p : String} {as : List Tm} {us : List FT} (hp : Pred sc p) (hu : U (.pr p)) (h0 : as ≠ []) (hw : WFTL sc as) (i : DoneTL U sc as us) :
    Done U sc (.atom p as) (.at (anon p) us) := by
  have hn := neg_head hp.2.1 hp.2.2
  have hr := hp.1.1.2.1
  refine ⟨⟨fun_head hp.1 (.inl rfl), .inl ⟨hr, hn⟩, i.out⟩, ⟨⟨.inl rfl, hu⟩, i.pl⟩, i.fv, fun {D I ρ S v} hI hR => ?_, trivial, ?_⟩
  · simp only [G.frm, FInt.holds, FInt.atom, Str.means, i.sem hI hR, hR.pr]
  · have hE := elts_renderL hw
    refine aux_list (conn := none) (hs := some p) ?_ (by simp [jstr, Spec.str, uri, hp.1.1.1]) (render_ne h0) (elts_eqOp hE)
      (auxList_atom (n := uri p) (not_head hr).2 (term_t (body_elts (f := uri p) (fun_head hp.1 (.inr rfl)) hn ?_ hE (i.run 1 (by omega)))))
    · simp only [logconn, isConn, Spec.str]
      rw [if_neg (fun e => (not_head hr).1 e.2)]
      exact logconn_elts hE
    · intro hm
      refine hr ?_
      simp only [List.mem_cons, List.not_mem_nil, or_false, uri] at hm
      rcases hm with rfl | rfl | rfl | rfl | rfl | rfl <;> decide

/-- a name with a sign before it is no word of the language -/
theorem signed {c : Char} {p : String} (hc : c = '-' ∨ c = '~') (h0 : p ≠ "") (hr : p ∉ reserved) :
    String.ofList (c :: p.toList) ∉ reserved := by
  intro hm
  have key : ∀ w ∈ reserved, String.ofList (c :: p.toList) = w → w.toList = c :: p.toList := by
    intro w _ e
    rw [← e, String.toList_ofList]
  have k2 : ∀ w, w.toList = c :: p.toList → p = rest w := by
    intro w e
    simp [rest, e]
  have k3 := k2 _ (key _ hm rfl)
  have k4 : ∀ w ∈ reserved, (w.toList.head? = some '-' ∨ w.toList.head? = some '~') → rest w = "" ∨ rest w ∈ reserved := by
    decide +kernel
  rcases k4 _ hm (by simp [hc]) with e | e
  · exact h0 (k3.trans e)
  · exact hr (k3 ▸ e)

theorem signed_head {c : Char} {p : String} (hs : ScOk sc) (hc : c = '-' ∨ c = '~') : HeadOk sc (uri (String.ofList (c :: p.toList))) := by
  have hl : (String.ofList (c :: p.toList)).toList = c :: p.toList := String.toList_ofList
  have hne : ∀ w : String, w.toList.head? ≠ some '-' → w.toList.head? ≠ some '~' → String.ofList (c :: p.toList) ≠ w := by
    rintro w h1 h2 rfl
    rcases hc with rfl | rfl
    · simp at h1
    · simp at h2
  have hq : isQ (String.ofList (c :: p.toList)) = false := by
    simp only [isQ, hl]
    rcases hc with rfl | rfl <;> rfl
  refine ⟨.inl rfl, hne _ (by decide) (by decide), hne _ (by decide) (by decide), hne _ (by decide) (by decide), hq, fun hm => ?_⟩
  have := hs _ hm
  have e : varName (.atom (uri (String.ofList (c :: p.toList)))) = none := by
    show (match (String.ofList (c :: p.toList)).toList with
      | [] => none
      | d :: _ => if isQ (String.ofList (c :: p.toList)) ∨ 'A' ≤ d ∧ d ≤ 'Z' then some _ else none) = none
    rw [hl]
    refine if_neg ?_
    rw [hq]
    rcases hc with rfl | rfl <;> decide
  rw [show (uri (String.ofList (c :: p.toList))).str = String.ofList (c :: p.toList) from rfl] at this
  rw [e] at this
  cases this

theorem neg_run {s p : String} {fv : List String} {r1 l : List Jv} (hH : HeadOk sc (uri s)) (hR : s ∉ reserved) (hN : negHead s = true)
    (hst : rest s = p) (hE : Elts r1) (h0 : r1 ≠ []) (hl : Run sc fv (fun k st => termL k st r1 1) l) :
    Run sc fv (fun k st => aux k st (.list (.atom (uri s) :: r1))) (.list [.atom (anon "not"), .list (.atom (uri p) :: l)]) := by
  have hj : jstr (.atom (uri s)) = .ok (some s) := by
    have := hH.ne
    simp only [uri] at this
    simp [jstr, uri, this]
  obtain ⟨o, ho, hw⟩ := elts_second hE
  refine aux_list (conn := none) (hs := some s) ?_ hj h0 (elts_eqOp hE) (auxList_atom (n := uri s) (not_head hR).2 (term_t
    (body_t ho ⟨hw _ (by decide), hw _ (by decide)⟩ (hs := some s) hj ?_ ?_)))
  · simp only [logconn, isConn]
    rw [if_neg (fun e => (not_head hR).1 e.2)]
    exact logconn_elts hE
  · refine ⟨?_, ?_, ?_, ?_⟩ <;> intro e <;> refine hR ?_ <;> rw [Option.some.inj e] <;> decide
  · have hL : Run sc ([] ++ fv) (fun k st => termL k st (.atom (uri s) :: r1) 0) (.atom (anon s) :: l) :=
      Run.two (term_f (pos := 0) (body_atom (atom_head hH))) hl fun k st st1 st2 e1 e2 => by
        simp only [termL, e1, Except.bind, e2, Nat.zero_add]
        rfl
    refine Run.one hL fun k st st1 e1 => ?_
    simp only [termList]
    rw [if_neg (by simp [uri]), if_neg hH.ne, if_pos ⟨trivial, hN⟩, e1]
    simp only [Except.bind, List.drop_succ_cons, List.drop_zero]
    rw [show rest (uri s).str = p from hst]

theorem fm_natom {c : Char} {p : String} {as : List Tm} {us : List FT} (hs : ScOk sc) (hc : c = '-' ∨ c = '~') (hp : Pred sc p) (hpl : Spec.Plain p)
    (hu : U (.pr p))    (h0 : as ≠ []) (hw : WFTL sc as) (i : DoneTL U sc as us) : Done U sc (.natom c p as) (.neg (.at (uri p) us)) := by
  have hn := neg_head hp.2.1 hp.2.2
  have hr := hp.1.1.2.1
  have hl : (String.ofList (c :: p.toList)).toList = c :: p.toList := String.toList_ofList
  refine ⟨⟨fun_head hp.1 (.inr rfl), .inl ⟨hr, hn⟩, i.out⟩, ⟨⟨.inr ⟨rfl, hpl⟩, hu⟩, i.pl⟩, i.fv, fun {D I ρ S v} hI hR => ?_, trivial, ?_⟩
  · simp only [G.frm, FInt.holds, FInt.atom, Str.means, i.sem hI hR, ← hR.pr, hI.pr (uri p) (anon p) (.inl rfl) (.inr rfl) hpl]
  · refine neg_run (signed_head hs hc) (signed hc hp.1.1.1 hr) ?_ (by simp [rest]) (elts_renderL hw) (render_ne h0) (i.run 1 (by omega))
    simp only [negHead, hl]
    rcases hc with rfl | rfl <;> rfl

theorem prop_run {p : String} (hp : Pred sc p) : Run sc [] (fun k st => aux k st (.atom (uri p))) (.atom (anon p)) :=
  aux_atom (by
    rintro ⟨_, e⟩
    rw [show (uri p).str = p from rfl, neg_head hp.2.1 hp.2.2] at e
    cases e) (term_t (body_atom (atom_head (f := uri p) (fun_head hp.1 (.inr rfl)))))

theorem fm_prop {p : String} (hp : Pred sc p) (hu : U (.prop p)) : Done U sc (.prop p) (.pr (anon p)) := by
  refine ⟨⟨rfl, hp.1.1.1, hp.1.1.2.1, hp.1.1.2.2.1⟩, hu, fun x => Iff.rfl, fun {D I ρ S v} hI hR => ?_, ⟨hp.1.1.1, hp.1.1.2.1⟩, prop_run hp⟩
  simp only [G.frm, FInt.holds, FInt.atom, Str.means, hR.pr]

theorem fm_nprop {p : String} (hp : Pred sc p) (hu : U (.prop p)) : Done U sc (.nprop p) (.neg (.pr (anon p))) := by
  have hl : (String.ofList ('-' :: p.toList)).toList = '-' :: p.toList := String.toList_ofList
  refine ⟨⟨rfl, hp.1.1.1, hp.1.1.2.1, hp.1.1.2.2.1⟩, hu, fun x => Iff.rfl, fun {D I ρ S v} hI hR => ?_,
    ⟨?_, signed (.inl rfl) hp.1.1.1 hp.1.1.2.1⟩, ?_⟩
  · simp only [G.frm, FInt.holds, FInt.atom, Str.means, hR.pr]
  · intro e
    have := congrArg String.toList (show String.ofList ('-' :: p.toList) = "" from e)
    rw [hl] at this
    simp at this
  · have h : Run sc [] (fun k st => aux k st (.list [.atom (anon "not"), .atom (uri p)])) (.list [.atom (anon "not"), .atom (anon p)]) := by
      have e : Elt (.atom (uri p)) := ⟨hp.1.1.1, hp.1.1.2.1⟩
      refine aux_list (conn := some (anon "not")) (hs := some "not") ?_ rfl (by simp) e.eqOp (auxList_neg (by simp) (prop_run hp))
      simp only [logconn, e.conn]
      rfl
    refine Run.step (fun k st _ => ?_) h
    have h1 : negHead (String.ofList ('-' :: p.toList)) = true := by
      simp only [negHead, hl]
    have h2 : doubleNeg (String.ofList ('-' :: p.toList)) = false := by
      simp only [doubleNeg, hl]
      split
      · rename_i e
        cases e
      · rename_i e
        have := hp.2.1
        simp only [List.cons.injEq] at e
        simp [e.2] at this
      · rfl
    have h3 : rest (String.ofList ('-' :: p.toList)) = p := by simp [rest]
    simp only [Fm.json, Spec.str, aux]
    rw [show (uri (String.ofList ('-' :: p.toList))).str = String.ofList ('-' :: p.toList) from rfl, h1, h2, h3]
    simp [uri]

theorem fm_const (b : Bool) (hu : U (.prop (if b then "$true" else "$false"))) : Done U sc (.const b) (.pr (anon (if b then "$true" else "$false"))) := by
  have h : ∀ s ∈ ["$true", "$false"], s ≠ "" ∧ s ∉ reserved ∧ s ≠ "@type" := by decide
  have h := h (if b then "$true" else "$false") (by cases b <;> simp)
  refine ⟨⟨rfl, h⟩, hu, fun x => Iff.rfl, fun {D I ρ S v} hI hR => ?_, ⟨h.1, h.2.1⟩,
    aux_atom (by simp [anon]) (term_t (body_atom (atom_13 rfl h.1 h.2.2)))⟩
  simp only [G.frm, FInt.holds, FInt.atom, Str.means]
  cases b
  · simp [hI.ff]
  · simp [hI.tt]

/-- the equalities that are made -/
theorem out_eq (hs : ScOk sc) {n : Nm} (hn : n = anon "=" ∨ n = uri "=") (hu : U (.pr "=")) {a b : Tm} {ua ub : FT} (ha : DoneT U sc a ua) (hb : DoneT U sc b ub) :
    OutG sc (.at n [ua, ub]) ∧ PlG U (.at n [ua, ub]) ∧ (∀ x, x ∈ fvG sc (.at n [ua, ub]) ↔ x ∈ Spec.fvT sc a ++ Spec.fvT sc b) ∧
    ∀ {D : Type} {I : FInt D} {ρ : Nm → D} {S : Str D} {v : String → D}, Symbols I → Reads I ρ S v →
      (I.holds ρ (G.at n [ua, ub]).frm ↔ S.pr "=" [S.ev sc v a, S.ev sc v b]) := by
  refine ⟨⟨head_word hs (w := "=") (by decide) hn, .inr ⟨by rcases hn with rfl | rfl <;> rfl, rfl⟩, ha.out, hb.out, trivial⟩,
    ⟨?_, ha.pl, hb.pl, trivial⟩, fun x => by simp [fvG, fvTL, ha.fv, hb.fv], fun {D I ρ S v} hI hR => ?_⟩
  · rcases hn with rfl | rfl
    · exact ⟨.inl rfl, hu⟩
    · exact ⟨.inr ⟨rfl, by unfold Spec.Plain; decide +kernel⟩, hu⟩
  · simp only [G.frm, FInt.holds, FInt.atom, FInt.evL, ha.sem hI hR, hb.sem hI hR, ← hR.pr]
    refine iff_of_eq (congrFun (hI.pr _ _ (by rcases hn with rfl | rfl <;> decide) (.inr rfl) ?_) _)
    rcases hn with rfl | rfl <;> decide +kernel

theorem fm_eq (hs : ScOk sc) {op : String} (pre : Bool) {a b : Tm} {ua ub : FT} (ho : op ∈ ["=", "!=", "~=", "-="]) (hu : U (.pr "=")) (wa : WFT sc a) (wb : WFT sc b)
    (ha : DoneT U sc a ua) (hb : DoneT U sc b ub) : ∃ g, Done U sc (.eq op pre a b) g := by
  have ea := elt_render wa
  have eb := elt_render wb
  have hc : isConn (Spec.str op) = none := by
    simp only [List.mem_cons, List.not_mem_nil, or_false] at ho
    rcases ho with rfl | rfl | rfl | rfl <;> decide +kernel
  obtain ⟨A, B, C, E⟩ := out_eq hs (.inl rfl) hu ha hb
  obtain ⟨A', B', C', E'⟩ := out_eq hs (.inr rfl) hu ha hb
  have r1 := ha.run 1 (by omega)
  have r2 := hb.run 2 (by omega)
  have pos : pre = false → Run sc (Spec.fvT sc a ++ Spec.fvT sc b) (fun k st => aux k st (Fm.eq op pre a b).json)
      (if op = "=" then .list [.atom (uri "="), jvT ua, jvT ub] else .list [.atom (anon "not"), .list [.atom (anon "="), jvT ua, jvT ub]]) := by
    rintro rfl
    refine Run.two r1 r2 fun k st st1 st2 e1 e2 => ?_
    obtain ⟨o, hj, hw⟩ := ea.jstr
    have lg : logconn none [render a, Spec.str op, render b] = .ok none := by
      simp only [logconn, ea.conn, eb.conn, hc]
    have he : eqOp [Spec.str op, render b] = .ok (some (op, render b)) := by
      simp only [List.mem_cons, List.not_mem_nil, or_false] at ho
      rcases ho with rfl | rfl | rfl | rfl <;> simp [eqOp, Spec.str, uri]
    simp only [Fm.json, Bool.false_eq_true, if_false]
    rw [aux, lg, hj]
    simp only [Except.bind, List.isEmpty_cons, Bool.false_eq_true, and_false, if_false, he, e1, e2]
  have neg : pre = true → Run sc (Spec.fvT sc a ++ Spec.fvT sc b) (fun k st => aux k st (Fm.eq op pre a b).json)
      (if op == "=" then .list [.atom (anon "="), jvT ua, jvT ub] else .list [.atom (anon "not"), .list [.atom (anon "="), jvT ua, jvT ub]]) := by
    rintro rfl
    refine aux_list (conn := none) (hs := some op) ?_ ?_ (by simp) ea.eqOp
      (auxList_atom (n := uri op) ?_ (term_t (body_eq (n := uri op) ?_ ea r1 r2)))
    · simp only [logconn, ea.conn, eb.conn, hc]
    · simp only [List.mem_cons, List.not_mem_nil, or_false] at ho
      rcases ho with rfl | rfl | rfl | rfl <;> rfl
    · simp only [List.mem_cons, List.not_mem_nil, or_false] at ho
      rcases ho with rfl | rfl | rfl | rfl <;> decide
    · simp only [List.mem_cons, List.not_mem_nil, or_false] at ho
      rcases ho with rfl | rfl | rfl | rfl <;> decide
  have elt : Elt (Fm.eq op pre a b).json := by
    cases pre <;> trivial
  by_cases h : op = "="
  · cases pre with
    | false =>
      refine ⟨.at (uri "=") [ua, ub], A', B', C', fun {D I ρ S v} hI hR => ?_, elt, ?_⟩
      · simp only [Str.means, if_pos h, E' hI hR]
      · have := pos rfl
        rw [if_pos h] at this
        exact this
    | true =>
      refine ⟨.at (anon "=") [ua, ub], A, B, C, fun {D I ρ S v} hI hR => ?_, elt, ?_⟩
      · simp only [Str.means, if_pos h, E hI hR]
      · have := neg rfl
        rw [if_pos (by simpa using h)] at this
        exact this
  · refine ⟨.neg (.at (anon "=") [ua, ub]), A, B, C, fun {D I ρ S v} hI hR => ?_, elt, ?_⟩
    · have := E hI hR
      simp only [G.frm, FInt.holds] at this ⊢
      simp only [Str.means, if_neg h, this]
    · cases pre with
      | false =>
        have := pos rfl
        rw [if_neg h] at this
        exact this
      | true =>
        have := neg rfl
        rw [if_neg (by simpa using h)] at this
        exact this

theorem fm_neg {w : String} {f : Fm} {g : G} (hw : w ∈ ["not", "-", "~"]) (h : Done U sc f g) : Done U sc (.neg w f) (.neg g) := by
  refine ⟨h.out, h.pl, h.fv, fun {D I ρ S v} hI hR => ?_, trivial, ?_⟩
  · simp only [G.frm, FInt.holds, Str.means, h.sem hI hR]
  · refine aux_list (conn := some (uri w)) (hs := some w) ?_ ?_ (by simp) h.elt.eqOp (auxList_neg hw h.run)
    · simp only [List.mem_cons, List.not_mem_nil, or_false] at hw
      have hc : isConn (Spec.str w) = some (uri w) := by rcases hw with rfl | rfl | rfl <;> rfl
      simp only [logconn, hc, h.elt.conn]
    · simp only [List.mem_cons, List.not_mem_nil, or_false] at hw
      rcases hw with rfl | rfl | rfl <;> rfl

/-! ### Connectives with two arguments -/

/-- the last element, and a separator before it -/
theorem unflatten_sep {f1 : List String} {c nc : Nm} {ip ir : Bool} {x r : Jv} (hc : c.str ∈ reserved) (ht : c.ty = 7) (hx : Elt x)
    (h : Run sc f1 (fun k st => aux k st x) r) : Run sc f1 (fun k st => unflatten k st c nc ip ir [.atom c, x]) (some r) := by
  have h1 : Run sc f1 (fun k st => unflatten k st c nc ip ir [x]) (some r) :=
    Run.one h fun k st st1 e1 => by
      simp only [unflatten, hx.sep hc, Except.bind, Bool.false_eq_true, if_false, List.isEmpty_nil, if_true, e1]
  refine Run.step (fun k st _ => ?_) h1
  have : isSep c (.atom c) = .ok true := by
    simp only [isSep]
    rw [if_neg]
    · simp [equalAtoms, ht]
    · rintro ⟨_, _, e⟩
      rw [e] at hc
      exact absurd hc (by decide)
  rw [unflatten, this]
  rfl

/-- the list that is made of two arguments -/
def infixJ (nc : Nm) (ip ir : Bool) (a b : Jv) : Jv :=
  if ip && ir then .list [.atom nc, b, a] else if ip then .list [.atom nc, a, b] else .list [.atom (anon "not"), .list [.atom nc, a, b]]

theorem unflatten_infix {f1 f2 : List String} {c nc : Nm} {ip ir : Bool} {x y a b : Jv} (hc : c.str ∈ reserved) (ht : c.ty = 7) (hn : nc.str ∈ reserved)
    (hx : Elt x) (hy : Elt y) (ha : Elt a) (hb : Elt b)
    (h1 : Run sc f1 (fun k st => aux k st x) a) (h2 : Run sc f2 (fun k st => aux k st y) b) :
    Run sc (f1 ++ f2) (fun k st => unflatten k st c nc ip ir [y, .atom c, x]) (some (infixJ nc ip ir a b)) := by
  refine Run.two (unflatten_sep (nc := nc) (ip := ip) (ir := ir) hc ht hx h1) h2 fun k st st1 st2 e1 e2 => ?_
  rw [unflatten, hy.sep hc]
  simp only [Except.bind, Bool.false_eq_true, if_false, List.isEmpty_cons, e1, hy.really hc, e2, ha.really hn, hb.really hn, infixJ]
  cases ip <;> cases ir <;> rfl

/-- the formula that is made -/
def infixG (op : String) (a b : G) : G :=
  if op = "=>" then .bin .imp a b
  else if op = "<=" then .bin .imp b a
  else if op = "<=>" then .bin .eqv a b
  else if op = "<~>" then .neg (.bin .eqv a b)
  else if op = "~|" then .neg (.bin .or a b)
  else .neg (.bin .and a b)

theorem fm_infx {op : String} {fa fb : Fm} {a b : G} (ho : op ∈ ["=>", "<=", "<=>", "<~>", "~|", "~&"]) (ha : Done U sc fa a) (hb : Done U sc fb b) :
    Done U sc (.infx op fa fb) (infixG op a b) := by
  have key : ∃ nc : Nm, translate op = some nc ∧ nc.str ∈ reserved ∧ op ∈ reserved ∧ isConn (Spec.str op) = some (uri op) ∧
      eqOp [Spec.str op, fb.json] = .ok none ∧
      infixJ nc (!negType op) (op == "<=") (jvG a) (jvG b) = jvG (infixG op a b) := by
    simp only [List.mem_cons, List.not_mem_nil, or_false] at ho
    rcases ho with rfl | rfl | rfl | rfl | rfl | rfl
    · exact ⟨anon "imp", by decide, by decide, by decide, rfl, rfl, rfl⟩
    · exact ⟨anon "imp", by decide, by decide, by decide, rfl, rfl, rfl⟩
    · exact ⟨anon "eqv", by decide, by decide, by decide, rfl, rfl, rfl⟩
    · exact ⟨anon "eqv", by decide, by decide, by decide, rfl, rfl, rfl⟩
    · exact ⟨anon "or", by decide, by decide, by decide, rfl, rfl, rfl⟩
    · exact ⟨anon "and", by decide, by decide, by decide, rfl, rfl, rfl⟩
  obtain ⟨nc, k1, k2, k3, k4, k5, k6⟩ := key
  have hG : (OutG sc (infixG op a b) ∧ PlG U (infixG op a b)) ∧ ∀ x, x ∈ fvG sc (infixG op a b) ↔ x ∈ fvG sc a ∨ x ∈ fvG sc b := by
    simp only [List.mem_cons, List.not_mem_nil, or_false] at ho
    rcases ho with rfl | rfl | rfl | rfl | rfl | rfl
    · exact ⟨⟨⟨ha.out, hb.out⟩, ⟨ha.pl, hb.pl⟩⟩, fun x => List.mem_append⟩
    · exact ⟨⟨⟨hb.out, ha.out⟩, ⟨hb.pl, ha.pl⟩⟩, fun x => List.mem_append.trans or_comm⟩
    · exact ⟨⟨⟨ha.out, hb.out⟩, ⟨ha.pl, hb.pl⟩⟩, fun x => List.mem_append⟩
    · exact ⟨⟨⟨ha.out, hb.out⟩, ⟨ha.pl, hb.pl⟩⟩, fun x => List.mem_append⟩
    · exact ⟨⟨⟨ha.out, hb.out⟩, ⟨ha.pl, hb.pl⟩⟩, fun x => List.mem_append⟩
    · exact ⟨⟨⟨ha.out, hb.out⟩, ⟨ha.pl, hb.pl⟩⟩, fun x => List.mem_append⟩
  refine ⟨hG.1.1, hG.1.2, fun x => ?_, fun {D I ρ S v} hI hR => ?_, trivial, ?_⟩
  · rw [hG.2, ha.fv, hb.fv, Fm.fv, List.mem_append]
  · have sa := ha.sem hI hR
    have sb := hb.sem hI hR
    simp only [List.mem_cons, List.not_mem_nil, or_false] at ho
    rcases ho with rfl | rfl | rfl | rfl | rfl | rfl
    · simp [infixG, G.frm, holds_imp2, Str.means, sa, sb]
    · simp [infixG, G.frm, holds_imp2, Str.means, sa, sb]
    · simp [infixG, G.frm, FInt.holds, Str.means, sa, sb]
    · simp [infixG, G.frm, FInt.holds, Str.means, sa, sb]
    · simp [infixG, G.frm, FInt.holds, FInt.holdsAny, Str.means, sa, sb]
    · simp [infixG, G.frm, FInt.holds, FInt.holdsAll, Str.means, sa, sb]
  · obtain ⟨o, hj, hw⟩ := ha.elt.jstr
    rw [← k6]
    refine aux_list (conn := some (uri op)) (hs := o) ?_ hj (by simp) k5 (auxList_conn (c := uri op) (nc := nc) (fun w hm => hw w ?_) k1
      (unflatten_infix (c := uri op) k3 rfl k2 ha.elt hb.elt (elt_G ha.out) (elt_G hb.out) ha.run hb.run))
    · simp only [logconn, ha.elt.conn, hb.elt.conn, k4]
    · simp only [headWords, List.mem_cons, List.not_mem_nil, or_false] at hm
      rcases hm with rfl | rfl | rfl | rfl | rfl | rfl <;> decide

/-! ### Connectives with several arguments -/

theorem headWords_reserved {w : String} (h : w ∈ headWords) : w ∈ reserved := by
  simp only [headWords, List.mem_cons, List.not_mem_nil, or_false] at h
  rcases h with rfl | rfl | rfl | rfl | rfl | rfl <;> decide

theorem DoneL.elts {fs : List Fm} {gs : List G} (h : DoneL U sc fs gs) : Elts (jsonL fs) := by
  induction h with
  | nil => intro x hx; cases hx
  | cons h _ ih =>
    intro x hx
    rcases List.mem_cons.1 hx with rfl | hx
    · exact h.elt
    · exact ih x hx

theorem DoneL.length {fs : List Fm} {gs : List G} (h : DoneL U sc fs gs) : gs.length = fs.length := by
  induction h with
  | nil => rfl
  | cons _ _ ih => simp [ih]

theorem DoneL.all {fs : List Fm} {gs : List G} (h : DoneL U sc fs gs) :
    ∀ g ∈ gs, OutG sc g ∧ PlG U g := by
  induction h with
  | nil => simp
  | cons h _ ih =>
    intro g hg
    rcases List.mem_cons.1 hg with rfl | hg
    · exact ⟨h.out, h.pl⟩
    · exact ih g hg

theorem DoneL.fv {fs : List Fm} {gs : List G} (h : DoneL U sc fs gs) (x : String) :
    (∃ g ∈ gs, x ∈ fvG sc g) ↔ x ∈ Spec.fvL sc fs := by
  induction h with
  | nil => simp [Spec.fvL]
  | cons h _ ih => simp [Spec.fvL, ih, h.fv]

theorem DoneL.sem {fs : List Fm} {gs : List G} (h : DoneL U sc fs gs) {D : Type} {I : FInt D} {ρ : Nm → D} {S : Str D} {v : String → D}
    (hI : Symbols I) (hR : Reads I ρ S v) :
    ((∀ g ∈ gs, I.holds ρ g.frm) ↔ S.allOf sc v fs) ∧ ((∃ g ∈ gs, I.holds ρ g.frm) ↔ S.anyOf sc v fs) := by
  induction h with
  | nil => simp [Str.allOf, Str.anyOf]
  | cons h _ ih => simp [Str.allOf, Str.anyOf, ih.1, ih.2, h.sem hI hR]

theorem ex_cons {g : G} {gs : List G} {P : G → Prop} : (∃ x ∈ g :: gs, P x) ↔ P g ∨ ∃ x ∈ gs, P x := by simp

/-- what is made of several formulas -/
theorem chain_ok {o : Bin} : ∀ {gs : List G}, gs ≠ [] → ∃ g, chain o gs = some g ∧
    ((∀ g ∈ gs, OutG sc g ∧ PlG U g) → OutG sc g ∧ PlG U g) ∧ (∀ x, x ∈ fvG sc g ↔ ∃ g ∈ gs, x ∈ fvG sc g) ∧
    ∀ {D : Type} {I : FInt D} {ρ : Nm → D}, (o = .and → (I.holds ρ g.frm ↔ ∀ g ∈ gs, I.holds ρ g.frm)) ∧
      (o = .or → (I.holds ρ g.frm ↔ ∃ g ∈ gs, I.holds ρ g.frm))
  | [], h => absurd rfl h
  | [g], _ => ⟨g, rfl, fun h => h g (by simp), fun x => by simp, fun {D I ρ} => ⟨fun _ => by simp, fun _ => by simp⟩⟩
  | g :: g2 :: gs, _ => by
    obtain ⟨a, e, h1, h2, h3⟩ := chain_ok (o := o) (gs := g2 :: gs) (by simp)
    refine ⟨.bin o a g, ?_, fun h => ?_, fun x => ?_, fun {D I ρ} => ⟨?_, ?_⟩⟩
    · rw [chain, e]
    · have i := h1 fun y hy => h y (List.mem_cons_of_mem _ hy)
      have j := h g (by simp)
      exact ⟨⟨i.1, j.1⟩, i.2, j.2⟩
    · rw [fvG, List.mem_append, h2, ex_cons (g := g), or_comm]
    · rintro rfl
      rw [G.frm, Gkc.Clausify.holds_and2, h3.1 rfl, List.forall_mem_cons (a := g), and_comm]
    · rintro rfl
      rw [G.frm, Gkc.Clausify.holds_or2, h3.2 rfl, ex_cons (g := g), or_comm]

theorem ex_map {l : List G} {P : G → Prop} : (∃ x ∈ l.map G.norm, P x) ↔ ∃ x ∈ l, P x.norm := by
  constructor
  · rintro ⟨x, hx, hp⟩
    obtain ⟨z, hz, rfl⟩ := List.mem_map.1 hx
    exact ⟨z, hz, hp⟩
  · rintro ⟨x, hx, hp⟩
    exact ⟨_, List.mem_map.2 ⟨x, hx, rfl⟩, hp⟩

theorem items_rev {c : Nm} {fs : List Fm} {gs : List G} (h : DoneL U sc fs gs) : ∀ {tl : List Jv} {ft : List String} {gt : List G},
    Items sc c tl ft gt → ∃ fv, (∀ x, x ∈ fv ↔ x ∈ Spec.fvL sc fs ∨ x ∈ ft) ∧ Items sc c ((jsonL fs).reverse ++ tl) fv (gs.reverse ++ gt) := by
  induction h with
  | nil => exact fun h => ⟨_, fun x => by simp [Spec.fvL], h⟩
  | cons h _ ih =>
    intro tl ft gt ht
    obtain ⟨fv, e, i⟩ := ih (Items.item h.elt h.run (elt_G h.out) ht)
    refine ⟨fv, fun x => ?_, by simpa [jsonL] using i⟩
    rw [e]
    simp only [Spec.fvL, List.mem_append]
    exact ⟨fun h => h.elim (fun h => .inl (.inr h)) fun h => h.elim .inr fun h => .inl (.inl h),
      fun h => h.elim (fun h => h.elim (fun h => .inr (.inr h)) .inl) fun h => .inr (.inl h)⟩

theorem items_sep {w : String} {fs : List Fm} {gs : List G} (h : DoneL U sc fs gs) : ∀ {tl : List Jv} {ft : List String} {gt : List G},
    Items sc (uri w) tl ft gt → ∃ fv, (∀ x, x ∈ fv ↔ x ∈ Spec.fvL sc fs ∨ x ∈ ft) ∧
      Items sc (uri w) ((Spec.sep w (jsonL fs)).reverse ++ tl) fv (gs.reverse ++ gt) := by
  induction h with
  | nil => exact fun h => ⟨_, fun x => by simp [Spec.fvL], h⟩
  | @cons f g fs gs h hl ih =>
    intro tl ft gt ht
    have i0 := Items.item h.elt h.run (elt_G h.out) ht
    cases hl with
    | nil => exact ⟨_, fun x => by simp [Spec.fvL, or_comm], i0⟩
    | @cons f2 g2 fs2 gs2 h2 hl2 =>
      obtain ⟨fv, e, i⟩ := ih (Items.sep rfl i0)
      refine ⟨fv, fun x => ?_, by simpa [jsonL, Spec.sep, Spec.str] using i⟩
      rw [e, List.mem_append, show Spec.fvL sc (f :: f2 :: fs2) = f.fv sc ++ Spec.fvL sc (f2 :: fs2) from rfl, List.mem_append]
      exact ⟨fun h => h.elim (fun h => .inl (.inr h)) fun h => h.elim .inr fun h => .inl (.inl h),
        fun h => h.elim (fun h => h.elim (fun h => .inr (.inr h)) .inl) fun h => .inr (.inl h)⟩

/-- the connective for a word -/
def wordBin (w : String) : Bin := if w = "&" ∨ w = "and" then .and else .or

theorem word_ok {w : String} (hw : w ∈ ["&", "and", "|", "or"]) :
    translate w = some (anon (wordBin w).str) ∧ w ∈ reserved ∧ isConn (Spec.str w) = some (uri w) ∧ w ∉ headWords ∧
    negType w = false ∧ (w == "<=") = false ∧ w ∉ ["=", "~=", "-=", "!="] ∧ w ≠ "" := by
  simp only [List.mem_cons, List.not_mem_nil, or_false] at hw
  rcases hw with rfl | rfl | rfl | rfl <;> decide +kernel

theorem logconn_some {w : String} : ∀ {l : List Jv}, (∀ x ∈ l, Elt x ∨ x = .atom (uri w)) → w ∈ connectives →
    logconn (some (uri w)) l = .ok (some (uri w))
  | [], _, _ => rfl
  | x :: xs, h, hw => by
    have ih := logconn_some (l := xs) (fun y hy => h y (List.mem_cons_of_mem _ hy)) hw
    rcases h x (by simp) with e | rfl
    · simp only [logconn, e.conn, ih]
    · have : isConn (.atom (uri w)) = some (uri w) := by
        simp only [isConn]
        rw [if_pos ⟨.inl rfl, hw⟩]
      simp only [logconn, this]
      rw [if_pos (by simp [equalAtoms, uri]), ih]

theorem sep_mem {w : String} : ∀ {l : List Jv} {x : Jv}, x ∈ Spec.sep w l → x ∈ l ∨ x = .atom (uri w)
  | [], x, h => by cases h
  | [y], x, h => .inl h
  | y :: z :: l, x, h => by
    simp only [Spec.sep, List.mem_cons] at h
    rcases h with rfl | rfl | h
    · simp
    · exact .inr rfl
    · exact (sep_mem h).imp (List.mem_cons_of_mem _) id

theorem word_conn {w : String} (hw : w ∈ ["&", "and", "|", "or"]) : w ∈ connectives := by
  simp only [List.mem_cons, List.not_mem_nil, or_false] at hw
  rcases hw with rfl | rfl | rfl | rfl <;> decide

/-- with the word in front -/
theorem many_pre {w : String} (hw : w ∈ ["&", "and", "|", "or"]) {fs : List Fm} {gs : List G} (h : DoneL U sc fs gs) (h0 : fs ≠ []) {g : G}
    (hg : chain (wordBin w) gs.reverse = some g) :
    Run sc (Spec.fvL sc fs) (fun k st => aux k st (.list (Spec.str w :: jsonL fs))) (jvG g) := by
  obtain ⟨k1, k2, k3, k4, k5, k6, _, k8⟩ := word_ok hw
  obtain ⟨fv, e, i⟩ := items_rev h (Items.sep (c := uri w) rfl Items.nil)
  have hr := unflatten_run (o := wordBin w) (c := uri w) k2 i
  rw [List.append_nil, hg] at hr
  refine aux_list (conn := some (uri w)) (hs := some w) ?_ (by simp [jstr, Spec.str, uri, k8]) ?_ (elts_eqOp h.elts)
    (auxList_conn (c := uri w) (nc := anon (wordBin w).str) (fun w' hm e => k4 (Option.some.inj e ▸ hm)) k1 ?_)
  · simp only [logconn, k3]
    exact logconn_some (fun x hx => .inl (h.elts x hx)) (word_conn hw)
  · cases fs with
    | nil => exact absurd rfl h0
    | cons _ _ => simp [jsonL]
  · rw [show (uri w).str = w from rfl, k5, k6, List.reverse_cons]
    exact Run.fv (fun x => by rw [e]; simp) hr

/-- with the word between the formulas -/
theorem many_in {w : String} (hw : w ∈ ["&", "and", "|", "or"]) {fs : List Fm} {gs : List G} (h : DoneL U sc fs gs) (h0 : 2 ≤ fs.length) {g : G}
    (hg : chain (wordBin w) gs.reverse = some g) :
    Run sc (Spec.fvL sc fs) (fun k st => aux k st (.list (Spec.sep w (jsonL fs)))) (jvG g) := by
  obtain ⟨k1, k2, k3, k4, k5, k6, k7, k8⟩ := word_ok hw
  obtain ⟨fv, e, i⟩ := items_sep (w := w) h Items.nil
  have hr := unflatten_run (o := wordBin w) (c := uri w) k2 i
  rw [List.append_nil, List.append_nil, hg] at hr
  have hE := h.elts
  match fs, h0, hE with
  | f1 :: f2 :: fs, _, hE =>
    have e1 := hE f1.json (by simp [jsonL])
    obtain ⟨o, hj, ho⟩ := e1.jstr
    have lg : logconn none (Spec.sep w (jsonL (f1 :: f2 :: fs))) = .ok (some (uri w)) := by
      simp only [jsonL, Spec.sep, logconn, e1.conn, k3]
      refine logconn_some (fun x hx => (sep_mem hx).imp (fun hx => hE x ?_) id) (word_conn hw)
      simp only [jsonL]
      exact List.mem_cons_of_mem _ hx
    have eq : ∀ y ys, eqOp (Spec.str w :: y :: ys) = .ok none := by
      intro y ys
      simp only [eqOp, Spec.str]
      rw [if_pos (by rfl), if_neg (show ¬ (uri w).str = "" from k8), if_neg (show ¬ (uri w).str ∈ _ from k7)]
    have ne : ∃ y ys, Spec.sep w (f2.json :: jsonL fs) = y :: ys := by
      cases jsonL fs with
      | nil => exact ⟨_, _, rfl⟩
      | cons _ _ => exact ⟨_, _, rfl⟩
    obtain ⟨y, ys, ey⟩ := ne
    refine aux_list (conn := some (uri w)) (hs := o) lg hj (by simp) ?_
      (auxList_conn (c := uri w) (nc := anon (wordBin w).str) (fun w' hm e => ho w' (headWords_reserved hm) e) k1 ?_)
    · rw [ey]
      exact eq y ys
    · rw [show (uri w).str = w from rfl, k5, k6]
      exact Run.fv (fun x => by rw [e]; simp) hr

theorem rev_ne {gs : List G} (h : gs ≠ []) : gs.reverse ≠ [] := by simpa using h

theorem done_ne {fs : List Fm} {gs : List G} (h : DoneL U sc fs gs) (h0 : fs ≠ []) : gs ≠ [] := by
  cases h with
  | nil => exact absurd rfl h0
  | cons _ _ => simp

theorem fm_many {w : String} {pre : Bool} (hw : w ∈ ["&", "and", "|", "or"]) {fs : List Fm} {gs : List G} (h : DoneL U sc fs gs)
    (h0 : (if pre then 1 else 2) ≤ fs.length) : ∃ g, Done U sc (.many w pre fs) g := by
  have hf : fs ≠ [] := by
    rintro rfl
    cases pre <;> simp at h0
  obtain ⟨g, e, h1, h2, h3⟩ := chain_ok (sc := sc) (o := wordBin w) (rev_ne (done_ne h hf))
  have i := h1 (by simpa using h.all)
  refine ⟨g, i.1, i.2, fun x => ?_, fun {D I ρ S v} hI hR => ?_, by cases pre <;> trivial, ?_⟩
  · rw [h2, Fm.fv, ← h.fv]
    simp
  · have hs := h.sem hI hR
    simp only [Str.means]
    by_cases hb : w = "&" ∨ w = "and"
    · rw [if_pos hb, h3.1 (by rw [wordBin, if_pos hb]), ← hs.1]
      simp
    · rw [if_neg hb, h3.2 (by rw [wordBin, if_neg hb]), ← hs.2]
      simp
  · cases pre with
    | true => exact many_pre hw h hf e
    | false => exact many_in hw h h0 e

theorem isList_json : ∀ {f : Fm}, f.isList = true → ∃ l, f.json = .list l
  | .atom _ _, _ => ⟨_, rfl⟩
  | .natom _ _ _, _ => ⟨_, rfl⟩
  | .eq _ true _ _, _ => ⟨_, rfl⟩
  | .eq _ false _ _, _ => ⟨_, rfl⟩
  | .neg _ _, _ => ⟨_, rfl⟩
  | .infx _ _ _, _ => ⟨_, rfl⟩
  | .many _ true _, _ => ⟨_, rfl⟩
  | .many _ false _, _ => ⟨_, rfl⟩
  | .clause _, _ => ⟨_, rfl⟩
  | .quant _ _ _, _ => ⟨_, rfl⟩
  | .ifThen _ _, _ => ⟨_, rfl⟩

theorem fm_clause {fs : List Fm} {gs : List G} (h : DoneL U sc fs gs) (h0 : ∃ f r, fs = f :: r ∧ f.isList = true) : ∃ g, Done U sc (.clause fs) g := by
  obtain ⟨f, r, rfl, hl⟩ := h0
  obtain ⟨l, hl⟩ := isList_json hl
  obtain ⟨g, e, h1, h2, h3⟩ := chain_ok (sc := sc) (o := wordBin "or") (rev_ne (done_ne h (by simp)))
  have i := h1 (by simpa using h.all)
  refine ⟨g, i.1, i.2, fun x => ?_, fun {D I ρ S v} hI hR => ?_, trivial, ?_⟩
  · rw [h2, Fm.fv, ← h.fv]
    simp
  · simp only [Str.means]
    rw [h3.2 rfl, ← (h.sem hI hR).2]
    simp
  · have hr := many_pre (w := "or") (by simp) h (by simp) e
    have hE := h.elts
    have lg : logconn none (jsonL (f :: r)) = .ok none := logconn_elts hE
    have eq : eqOp (jsonL r) = .ok none := elts_eqOp fun x hx => hE x (by simp [jsonL, hx])
    simp only [jsonL, hl] at lg hr
    refine Run.step (fun k st _ => ?_) (F' := fun k st => auxList k st none none (.list l) (jsonL r)) (Run.step (fun k st _ => ?_) hr)
    · simp only [Fm.json, jsonL, hl]
      rw [aux, lg]
      simp [Except.bind, jstr, eq]
    · rw [auxList.eq_def]
      simp [Spec.str]

/-! ### Quantifiers -/

theorem fm_quant {w : String} {vs : List String} {f : Fm} {g : G} (hw : w ∈ ["forall", "exists"]) (h0 : vs ≠ [])
    (hv : ∀ s ∈ vs, varName (.atom (uri s)) = some s) (hu : ∀ s ∈ vs, U (.var s)) (h : Done U (vs ++ sc) f g) : Done U sc (.quant w vs f) (.qu (w == "forall") vs g) := by
  refine ⟨⟨h0, hv, h.out⟩, ⟨hu, h.pl⟩, h.fv, fun {D I ρ S v} hI hR => ?_, trivial, ?_⟩
  · have k1 : ∀ ρ', Variant (vs.map uri) ρ ρ' → Reads I ρ' S (fun s => ρ' (uri s)) ∧ ∀ s, s ∉ vs → ρ' (uri s) = v s := by
      intro ρ' hV
      refine ⟨⟨fun s => ?_, fun ty t ht => ?_, hR.fn, hR.pr, fun _ => rfl⟩, fun s hs => ?_⟩
      · rw [hV _ (by simp [uri, anon]), hR.cst]
      · rw [hV _ (by simp only [uri, List.mem_map, Nm.mk.injEq, not_exists, not_and]; omega), hR.num _ _ ht]
      · rw [hV _ (by simpa [uri] using hs), hR.var]
    have k2 : ∀ v' : String → D, (∀ s, s ∉ vs → v' s = v s) → ∃ ρ', Variant (vs.map uri) ρ ρ' ∧ ∀ s, ρ' (uri s) = v' s := by
      intro v' hv'
      refine ⟨fun n => if n.ty = 7 then v' n.str else ρ n, fun n hn => ?_, fun s => by simp [uri]⟩
      simp only
      split
      · rename_i h7
        rw [hv', ← hR.var, ← nm7 h7]
        intro hm
        exact hn (List.mem_map.2 ⟨_, hm, (nm7 h7).symm⟩)
      · rfl
    have k3 : ∀ ρ' v', Variant (vs.map uri) ρ ρ' → (∀ s, ρ' (uri s) = v' s) → (I.holds ρ' g.frm ↔ S.means (vs ++ sc) v' f) := by
      intro ρ' v' hV e
      have := (k1 ρ' hV).1
      rw [show (fun s => ρ' (uri s)) = v' from funext e] at this
      exact h.sem hI this
    simp only [List.mem_cons, List.not_mem_nil, or_false] at hw
    rcases hw with rfl | rfl
    · simp only [beq_self_eq_true, G.frm, FInt.holds, Str.means, if_true]
      constructor
      · intro H v' hv'
        obtain ⟨ρ', a, b⟩ := k2 v' hv'
        exact (k3 ρ' v' a b).1 (H ρ' a)
      · intro H ρ' hV
        exact (k3 ρ' _ hV fun _ => rfl).2 (H _ (k1 ρ' hV).2)
    · have e : ("exists" == "forall") = false := by decide
      simp only [e, G.frm, FInt.holds, Str.means]
      rw [if_neg (by decide)]
      constructor
      · rintro ⟨ρ', hV, H⟩
        exact ⟨_, (k1 ρ' hV).2, (k3 ρ' _ hV fun _ => rfl).1 H⟩
      · rintro ⟨v', hv', H⟩
        obtain ⟨ρ', a, b⟩ := k2 v' hv'
        exact ⟨ρ', a, (k3 ρ' v' a b).2 H⟩
  · have hr := auxList_quant (x := Spec.str w) (q := w == "forall") (c := some (uri w)) h0 hv h.run
    have e : (if (w == "forall") = true then "forall" else "exists") = w := by
      simp only [List.mem_cons, List.not_mem_nil, or_false] at hw
      rcases hw with rfl | rfl <;> decide
    rw [e] at hr
    refine aux_list (conn := some (uri w)) (hs := some w) ?_ ?_ (by simp) rfl hr
    · have hc : isConn (Spec.str w) = some (uri w) := by
        simp only [List.mem_cons, List.not_mem_nil, or_false] at hw
        rcases hw with rfl | rfl <;> rfl
      have hl : isConn (.list (vs.map Spec.str)) = none := rfl
      simp only [logconn, hc, hl, h.elt.conn]
    · simp only [List.mem_cons, List.not_mem_nil, or_false] at hw
      rcases hw with rfl | rfl <;> rfl

/-! ### If, then -/

theorem Run.three {α β γ δ : Type} {f1 f2 f3 : List String} {F1 : Nat → St → Out (α × St)} {F2 : Nat → St → Out (β × St)}
    {F3 : Nat → St → Out (γ × St)} {H : Nat → St → Out (δ × St)} {a : α} {b : β} {c : γ} {r : δ}
    (h1 : Run sc f1 F1 a) (h2 : Run sc f2 F2 b) (h3 : Run sc f3 F3 c)
    (e : ∀ k st st1 st2 st3, F1 k st = .ok (a, st1) → F2 k st1 = .ok (b, st2) → F3 k st2 = .ok (c, st3) → H (k + 1) st = .ok (r, st3)) :
    Run sc (f1 ++ (f2 ++ f3)) H r := by
  obtain ⟨n1, h1⟩ := h1
  obtain ⟨n2, h2⟩ := h2
  obtain ⟨n3, h3⟩ := h3
  refine ⟨max n1 (max n2 n3) + 1, fun st hs => ?_⟩
  obtain ⟨st1, a1, b1, c1⟩ := h1 st hs
  obtain ⟨st2, a2, b2, c2⟩ := h2 st1 b1
  obtain ⟨st3, a3, b3, c3⟩ := h3 st2 b2
  refine ⟨st3, fun k hk => ?_, b3, fun x => ?_⟩
  · obtain ⟨k, rfl⟩ : ∃ m, k = m + 1 := ⟨k - 1, by omega⟩
    exact e k st st1 st2 st3 (a1 k (by omega)) (a2 k (by omega)) (a3 k (by omega))
  rw [c3, c2, c1, List.mem_append, List.mem_append, or_assoc, or_assoc]

theorem ifLoop_cons {k : Nat} {st : St} {i : Bool} {x : Jv} {xs : List Jv} (h : Elt x) : ifLoop (k + 1) st i (x :: xs) =
    (aux k st x).bind fun (x, st) => (ifLoop k st i xs).bind fun ((cs, ds, j), st) =>
      .ok (if i then (x :: cs, ds, j) else (cs, x :: ds, j), st) := by
  cases x with
  | null => exact h.elim
  | list l =>
    rw [ifLoop.eq_def]
    rfl
  | atom n =>
    have e : (n.str == "then") = false := by
      rw [beq_eq_false_iff_ne]
      intro e
      exact h.2 (by rw [e]; decide)
    rw [ifLoop.eq_def]
    simp only
    by_cases h7 : n.ty = 7
    · rw [if_pos h7, if_neg h.1, e]
      rfl
    · rw [if_neg h7]
      rfl

theorem loop_ds {ds : List Fm} {gs : List G} (h : DoneL U sc ds gs) :
    Run sc (Spec.fvL sc ds) (fun k st => ifLoop k st false (jsonL ds)) ([], gs.map jvG, false) := by
  induction h with
  | nil => exact Run.step (fun k st _ => by rw [jsonL, ifLoop]; rfl) (Run.pure _)
  | cons h _ ih =>
    refine Run.two h.run ih fun k st st1 st2 e1 e2 => ?_
    rw [jsonL, ifLoop_cons h.elt]
    simp only [Except.bind, Bool.false_eq_true, if_false, e1, e2, List.map_cons]

theorem loop_cs {cs ds : List Fm} {gs gt : List G} (h : DoneL U sc cs gs) (ht : DoneL U sc ds gt) :
    Run sc (Spec.fvL sc cs ++ Spec.fvL sc ds) (fun k st => ifLoop k st true (jsonL cs ++ Spec.str "then" :: jsonL ds))
      (gs.map jvG, gt.map jvG, false) := by
  induction h with
  | nil => exact Run.step (fun k st _ => by rw [jsonL, List.nil_append, Spec.str, ifLoop]; rfl) (loop_ds ht)
  | @cons f _ fs _ h _ ih =>
    rw [Spec.fvL, List.append_assoc]
    refine Run.two h.run ih fun k st st1 st2 e1 e2 => ?_
    rw [jsonL, List.cons_append, ifLoop_cons h.elt]
    simp only [Except.bind, Bool.false_eq_true, if_false, e1, e2, List.map_cons, if_true]

theorem items_made {c : Nm} (hs : ScOk sc) : ∀ (gs : List G), (∀ g ∈ gs, OutG sc g) →
    ∃ fv, (∀ x, x ∈ fv ↔ ∃ g ∈ gs, x ∈ fvG sc g) ∧ Items sc c (gs.map jvG) fv (gs.map G.norm)
  | [], _ => ⟨[], by simp, .nil⟩
  | g :: gs, h => by
    obtain ⟨fv, e, i⟩ := items_made (c := c) hs gs fun y hy => h y (List.mem_cons_of_mem _ hy)
    have hg := h g (by simp)
    refine ⟨fv ++ fvG sc g, fun x => ?_, .item (elt_G hg) (aux_G g hs hg) (norm_elt (elt_G hg)) i⟩
    rw [List.mem_append, e, ex_cons, or_comm]

/-- several conditions or consequences -/
theorem join_run {o : Bin} (hs : ScOk sc) {gs : List G} (h : ∀ g ∈ gs, OutG sc g ∧ PlG U g) (h0 : gs ≠ []) :
    ∃ g fv, (OutG sc g ∧ PlG U g) ∧ (∀ x, x ∈ fv → ∃ g ∈ gs, x ∈ fvG sc g) ∧ (∀ x, x ∈ fvG sc g ↔ ∃ g ∈ gs, x ∈ fvG sc g) ∧
      (∀ {D : Type} {I : FInt D} {ρ : Nm → D}, Symbols I → (o = .and → (I.holds ρ g.frm ↔ ∀ g ∈ gs, I.holds ρ g.frm)) ∧
        (o = .or → (I.holds ρ g.frm ↔ ∃ g ∈ gs, I.holds ρ g.frm))) ∧
      Run sc fv (fun k st => joinParts k st o.str (gs.map jvG)) (jvG g) := by
  match gs, h0, h with
  | [g], _, h =>
    refine ⟨g, [], h g (by simp), by simp, by simp, fun {D I ρ} _ => ⟨fun _ => by simp, fun _ => by simp⟩, ?_⟩
    exact Run.step (fun k st _ => by rw [List.map_cons, List.map_nil, joinParts]) (Run.pure _)
  | g1 :: g2 :: gs, _, h =>
    generalize hgs : g1 :: g2 :: gs = l at h
    have hl : l ≠ [] := by rw [← hgs]; simp
    obtain ⟨g, e, h1, h2, h3⟩ := chain_ok (sc := sc) (o := o) (gs := l.map G.norm) (by simpa using hl)
    obtain ⟨fv, ef, i⟩ := items_made (c := anon o.str) hs l fun y hy => (h y hy).1
    have hr := unflatten_run (o := o) (c := anon o.str) (bin_word o) i
    rw [e] at hr
    refine ⟨g, fv, h1 ?_, fun x => (ef x).1, fun x => ?_, fun {D I ρ} hI => ⟨fun ho => ?_, fun ho => ?_⟩, ?_⟩
    · intro y hy
      obtain ⟨z, hz, rfl⟩ := List.mem_map.1 hy
      exact ⟨OutG_norm z (h z hz).1, PlG_norm z (h z hz).2⟩
    · rw [h2, ex_map]
      simp only [fvG_norm]
    · rw [h3.1 ho]
      simp only [List.forall_mem_map]
      exact forall_congr' fun z => imp_congr_right fun hz => holds_norm hI z ρ (h z hz).2
    · rw [h3.2 ho, ex_map]
      exact exists_congr fun z => and_congr_right fun hz => holds_norm hI z ρ (h z hz).2
    · have hu : Run sc fv (fun k st => unflatten k st (anon o.str) (anon o.str) true false (.atom (anon o.str) :: l.map jvG)) (some (jvG g)) := by
        refine Run.one hr fun k st st1 e1 => ?_
        have hs0 : isSep (anon o.str) (.atom (anon o.str)) = .ok false := by
          simp [isSep, anon, equalAtoms]
        have hre : reallyEqual (anon o.str) (.atom (anon o.str)) = .ok true := by
          cases o <;> simp [reallyEqual, anon, Bin.str]
        have hemp : (l.map jvG).isEmpty = false := by rw [← hgs]; rfl
        rw [unflatten, hs0]
        simp only [Except.bind, Bool.false_eq_true, if_false, hemp, e1, hre, if_true, Option.map_some]
      refine Run.one hu fun k st st1 e1 => ?_
      rw [← hgs] at e1 ⊢
      simp only [List.map_cons] at e1 ⊢
      rw [joinParts, e1]
      · rfl
      · intro x e
        cases e

theorem fm_ifThen (hs : ScOk sc) {cs ds : List Fm} {gc gd : List G} (hc : DoneL U sc cs gc) (hd : DoneL U sc ds gd) (c0 : cs ≠ []) (d0 : ds ≠ []) :
    ∃ g, Done U sc (.ifThen cs ds) g := by
  obtain ⟨c, fc, oc, sc1, sc2, mc, rc⟩ := join_run (o := .and) hs hc.all (done_ne hc c0)
  obtain ⟨d, fd, od, sd1, sd2, md, rd⟩ := join_run (o := .or) hs hd.all (done_ne hd d0)
  refine ⟨.bin .imp c d, ⟨oc.1, od.1⟩, ⟨oc.2, od.2⟩, fun x => ?_, fun {D I ρ S v} hI hR => ?_, trivial, ?_⟩
  · rw [fvG, Fm.fv, List.mem_append, List.mem_append, sc2, sd2, hc.fv, hd.fv]
  · rw [G.frm, holds_imp2, (mc hI).1 rfl, (md hI).2 rfl, Str.means, (hc.sem hI hR).1, (hd.sem hI hR).2]
  · have ec : gc.isEmpty = false := by
      have := done_ne hc c0
      cases gc <;> simp_all
    have ed : gd.isEmpty = false := by
      have := done_ne hd d0
      cases gd <;> simp_all
    have h1 : Run sc ((Spec.fvL sc cs ++ Spec.fvL sc ds) ++ (fc ++ fd)) (fun k st => ifThen k st (jsonL cs ++ Spec.str "then" :: jsonL ds))
        (jvG (.bin .imp c d)) := by
      refine Run.three (loop_cs hc hd) rc rd fun k st st1 st2 st3 e1 e2 e3 => ?_
      rw [ifThen, e1]
      have e2 : joinParts k st1 "and" (gc.map jvG) = .ok (jvG c, st2) := e2
      have e3 : joinParts k st2 "or" (gd.map jvG) = .ok (jvG d, st3) := e3
      simp only [Except.bind, Bool.false_eq_true, List.isEmpty_map, ec, ed, or_false, if_false, e2, e3]
      rfl
    have h2 : Run sc (Spec.fvL sc cs ++ Spec.fvL sc ds) (fun k st => ifThen k st (jsonL cs ++ Spec.str "then" :: jsonL ds))
        (jvG (.bin .imp c d)) := by
      refine Run.fv (fun x => ?_) h1
      simp only [List.mem_append]
      constructor
      · rintro ((h | h) | h | h)
        · exact .inl h
        · exact .inr h
        · exact .inl ((hc.fv x).1 (sc1 x h))
        · exact .inr ((hd.fv x).1 (sd1 x h))
      · rintro (h | h)
        · exact .inl (.inl h)
        · exact .inl (.inr h)
    have hE := hc.elts
    refine aux_list (conn := some (uri "if")) (hs := some "if") ?_ rfl (by simp) ?_ (Run.step (fun k st _ => ?_) h2)
    · have k : ∀ l, (∀ x ∈ l, isConn x = none) → logconn (some (uri "if")) l = .ok (some (uri "if")) := by
        intro l
        induction l with
        | nil => intro _; rfl
        | cons x xs ih =>
          intro h
          simp only [logconn, h x (by simp)]
          exact ih fun y hy => h y (List.mem_cons_of_mem _ hy)
      have k0 : isConn (Spec.str "if") = some (uri "if") := rfl
      simp only [logconn, k0]
      refine k _ fun x hx => ?_
      rw [List.mem_append, List.mem_cons] at hx
      rcases hx with hx | rfl | hx
      · exact (hE x hx).conn
      · rfl
      · exact (hd.elts x hx).conn
    · cases cs with
      | nil => exact absurd rfl c0
      | cons f fs => exact (hE f.json (by simp [jsonL])).eqOp
    · rw [auxList.eq_def]
      simp
end

mutual
theorem fm_ok : ∀ (f : Fm) {sc : List String}, ScOk sc → WF sc f → (∀ x ∈ f.uses sc, U x) → ∃ g, Done U sc f g
  | .atom p as, sc, hs, h, hu => by
    obtain ⟨us, i⟩ := tm_okL hs as h.2.2 fun x m => hu x (List.mem_cons_of_mem _ m)
    exact ⟨_, fm_atom h.1 (hu _ List.mem_cons_self) h.2.1 h.2.2 i⟩
  | .natom c p as, sc, hs, h, hu => by
    obtain ⟨us, i⟩ := tm_okL hs as h.2.2.2.2 fun x m => hu x (List.mem_cons_of_mem _ m)
    exact ⟨_, fm_natom hs h.1 h.2.1 h.2.2.1 (hu _ List.mem_cons_self) h.2.2.2.1 h.2.2.2.2 i⟩
  | .prop p, sc, _, h, hu => ⟨_, fm_prop h (hu _ List.mem_cons_self)⟩
  | .nprop p, sc, _, h, hu => ⟨_, fm_nprop h (hu _ List.mem_cons_self)⟩
  | .const b, sc, _, _, hu => ⟨_, fm_const b (hu _ List.mem_cons_self)⟩
  | .eq op pre a b, sc, hs, h, hu => by
    obtain ⟨ua, ia⟩ := tm_ok hs a h.2.1 fun x m => hu x (List.mem_cons_of_mem _ (List.mem_append_left _ m))
    obtain ⟨ub, ib⟩ := tm_ok hs b h.2.2 fun x m => hu x (List.mem_cons_of_mem _ (List.mem_append_right _ m))
    exact fm_eq hs pre h.1 (hu _ List.mem_cons_self) h.2.1 h.2.2 ia ib
  | .neg w f, sc, hs, h, hu => by
    obtain ⟨g, i⟩ := fm_ok f hs h.2 hu
    exact ⟨_, fm_neg h.1 i⟩
  | .infx op a b, sc, hs, h, hu => by
    obtain ⟨g, i⟩ := fm_ok a hs h.2.1 fun x m => hu x (List.mem_append_left _ m)
    obtain ⟨g', i'⟩ := fm_ok b hs h.2.2 fun x m => hu x (List.mem_append_right _ m)
    exact ⟨_, fm_infx h.1 i i'⟩
  | .many w pre fs, sc, hs, h, hu => by
    obtain ⟨gs, i⟩ := fm_okL fs hs h.2.2 hu
    exact fm_many h.1 i h.2.1
  | .clause fs, sc, hs, h, hu => by
    obtain ⟨gs, i⟩ := fm_okL fs hs h.2 hu
    exact fm_clause i h.1
  | .quant w vs f, sc, hs, h, hu => by
    have hv : ∀ s ∈ vs, varName (.atom (uri s)) = some s := fun s hm => varName_spec (h.2.2.1 s hm)
    obtain ⟨g, i⟩ := fm_ok f (ScOk.append hv hs) h.2.2.2 fun x m => hu x (List.mem_append_right _ m)
    exact ⟨_, fm_quant h.1 h.2.1 hv (fun s m => hu _ (List.mem_append_left _ (List.mem_map.2 ⟨s, m, rfl⟩))) i⟩
  | .ifThen cs ds, sc, hs, h, hu => by
    obtain ⟨gc, i⟩ := fm_okL cs hs h.2.2.1 fun x m => hu x (List.mem_append_left _ m)
    obtain ⟨gd, j⟩ := fm_okL ds hs h.2.2.2 fun x m => hu x (List.mem_append_right _ m)
    exact fm_ifThen hs i j h.1 h.2.1
theorem fm_okL : ∀ (fs : List Fm) {sc : List String}, ScOk sc → WFL sc fs → (∀ x ∈ usesL sc fs, U x) → ∃ gs, DoneL U sc fs gs
  | [], _, _, _, _ => ⟨[], .nil⟩
  | f :: fs, sc, hs, h, hu => by
    obtain ⟨g, i⟩ := fm_ok f hs h.1 fun x m => hu x (List.mem_append_left _ m)
    obtain ⟨gs, j⟩ := fm_okL fs hs h.2 fun x m => hu x (List.mem_append_right _ m)
    exact ⟨g :: gs, .cons i j⟩
end

/-! ### Reading -/

mutual
theorem readT_jv : ∀ (u : FT), readT (jvT u) = some u
  | .nm _ => rfl
  | .app f as => by simp [jvT, readT, readTL_jv as]
theorem readTL_jv : ∀ (us : List FT), readTL (jvTL us) = some us
  | [] => rfl
  | u :: us => by simp [jvTL, readTL, readT_jv u, readTL_jv us]
end

theorem readVars_map : ∀ (vs : List String), readVars (vs.map fun s => .atom (uri s)) = some (vs.map uri)
  | [] => rfl
  | v :: vs => by simp [readVars, readVars_map vs]

theorem readF_jv : ∀ (g : G) {sc : List String}, OutG sc g → readF (jvG g) = some g.frm
  | .pr n, _, _ => by simp [jvG, readF, G.frm]
  | .at p as, sc, h => by
    have k : ∀ w ∈ reserved, w ≠ "=" → ¬ (p.ty = 13 ∧ p.str = w) := by
      rintro w hw hn ⟨_, e⟩
      rcases h.2.1 with ⟨h1, _⟩ | ⟨h1, _⟩
      · exact h1 (e ▸ hw)
      · exact hn (e ▸ h1)
    simp only [jvG, G.frm]
    rw [readF.eq_def]
    simp only
    rw [if_neg (k _ (by decide) (by decide)), if_neg (k _ (by decide) (by decide)), if_neg (k _ (by decide) (by decide)),
      if_neg (k _ (by decide) (by decide)), if_neg (k _ (by decide) (by decide)), if_neg (k _ (by decide) (by decide)),
      if_neg (k _ (by decide) (by decide)), readTL_jv]
    rfl
  | .neg g, _, h => by
    have := readF_jv g h
    simp [jvG, readF, anon, this, G.frm]
  | .bin o a b, _, h => by
    have ia := readF_jv a h.1
    have ib := readF_jv b h.2
    cases o <;> simp [jvG, readF, readFL, anon, Bin.str, ia, ib, G.frm]
  | .qu q vs g, _, h => by
    have i := readF_jv g h.2.2
    cases q <;> simp [jvG, readF, anon, quStr, readVars_map, i, G.frm]

end Gkc.Js
