import Verif.Props.Answers
import Verif.Props.JsLogic
/-
Formulas of JSON files that use each name in one way are formulas as C40 and C50 assume them.
-/
namespace Gkc.Props.Js
open Gkc Gkc.Clausify
open Gkc.Js (anon G PlT PlTL PlG OutT OutTL OutG HeadOk Done useOf isQ_qvar varName isQ)
open Gkc.Js.Spec (Tm Fm Use WF qvar capital)

/-! ### Signatures (specification) -/

/-- the arithmetic functions have two names -/
def arithName (s : String) : String :=
  if s = "$sum" then "+" else if s = "$difference" then "-" else if s = "$product" then "*" else if s = "$quotient" then "/" else s

/-- a role for each name; the names of the clausifier are not used -/
structure Sig (rl : String → SRole) : Prop where
  pr : rl "$pr" = .unused
  tt : rl "$true" = .prop
  ans : rl "$ans" = .pred
  sk : ∀ k : Nat, rl ("$sk" ++ toString k) = .unused
  df : ∀ k : Nat, rl ("$df" ++ toString k) = .unused

/-- a use that keeps to the roles; numbers are integers below 2^31 -/
def Keeps (rl : String → SRole) : Use → Prop
  | .cst s => rl s = .cnst
  | .num ty t => ty = 3 ∧ t.toList ≠ [] ∧ t.toList.all Char.isDigit = true ∧ decimal t < 2 ^ 31
  | .fn f => rl (arithName f) = .func ∧ f ≠ "$$lst"
  | .pr p => rl p = .pred ∧ p ≠ "$ans"
  | .prop p => rl p = .prop
  | .var _ => True

/-- no name is a variable in one place and not in another -/
def Apart (f : Fm) : Prop := ∀ s, Use.var s ∈ f.uses [] → Use.cst s ∉ f.uses [] ∧ Use.fn s ∉ f.uses [] ∧ Use.pr s ∉ f.uses [] ∧ Use.prop s ∉ f.uses []

/-! ### Symbols -/

/-- the name of a symbol -/
def nameOf : Const → String
  | .sym s => s
  | .qsym s => s
  | .str s => String.ofList ('#' :: ':' :: s.toList)
  | _ => ""

theorem nameOf_anon (s : String) : nameOf (anonSymbol s) = s := by
  unfold anonSymbol
  split
  · rename_i h
    simp only [nameOf, String.toList_ofList]
    refine String.toList_inj.1 ?_
    rw [String.toList_ofList]
    have := List.take_append_drop 2 s.toList
    rw [h] at this
    exact this
  · split <;> rfl

/-- the role of a symbol -/
def sgOf (rl : String → SRole) : Const → SRole
  | .int _ => .cnst
  | .dbl _ => .cnst
  | .oth _ => .unused
  | k => if anonSymbol (nameOf k) = k then rl (nameOf k) else .unused

theorem anonSymbol_cases (s : String) : anonSymbol s = .sym s ∨ anonSymbol s = .qsym s ∨ ∃ t, anonSymbol s = .str t := by
  unfold anonSymbol
  split
  · exact .inr (.inr ⟨_, rfl⟩)
  · split
    · exact .inl rfl
    · exact .inr (.inl rfl)

theorem sgOf_anon (rl : String → SRole) (s : String) : sgOf rl (anonSymbol s) = rl s := by
  have h := nameOf_anon s
  rcases anonSymbol_cases s with e | e | ⟨t, e⟩ <;> rw [e] at h ⊢ <;> simp only [sgOf, h, e, if_true]

theorem sgOf_sym {rl : String → SRole} {s : String} (h : rl s = .unused) : sgOf rl (.sym s) = .unused := by
  simp only [sgOf, nameOf]
  by_cases e : anonSymbol s = .sym s
  · exact (if_pos e).trans h
  · exact if_neg e

theorem Sig.fresh {rl : String → SRole} (h : Sig rl) (sn nr : Nat) : Fresh sn nr (sgOf rl) := by
  rintro s (⟨j, _, rfl⟩ | ⟨j, _, rfl⟩)
  · exact sgOf_sym (h.sk j)
  · exact sgOf_sym (h.df j)

theorem Sig.num {rl : String → SRole} : ∀ k, isNumber k → sgOf rl k = .cnst
  | .int _, _ => rfl
  | .dbl _, _ => rfl

theorem anonSymbol_ans : anonSymbol "$ans" = .sym "$ans" := by decide +kernel

theorem Sig.true_ {rl : String → SRole} (h : Sig rl) : sgOf rl (.sym "$true") = .prop := by
  have : anonSymbol "$true" = .sym "$true" := by decide +kernel
  rw [← this, sgOf_anon, h.tt]

theorem symbolOf_anon (s : String) : symbolOf (anon s) = anonSymbol s := by simp [symbolOf, anon]
theorem symbolOf_uri' (s : String) : symbolOf (uri s) = .sym s := by simp [symbolOf, uri]

/-- names with a plain symbol are no variables -/
theorem plain_sym {s : String} (h : Gkc.Js.Spec.Plain s) : anonSymbol s = .sym s := by
  unfold Gkc.Js.Spec.Plain at h
  simp only [primOf, uri, anon] at h
  simp only [Nat.reduceEqDiff, if_false, if_true, Option.some.injEq] at h
  rw [anonOf_symbol (.inl rfl)] at h
  exact h.symm

theorem sym_novar {s : String} (h : anonSymbol s = .sym s) : isVar exVar (uri s) = false := by
  unfold anonSymbol at h
  split at h
  · cases h
  · split at h
    · rename_i h'
      rcases h' with h | h
      · simp only [opNames, List.mem_cons, List.not_mem_nil, or_false] at h
        rcases h with rfl | rfl | rfl | rfl | rfl <;> decide +kernel
      · cases e : s.toList with
        | nil => simp [isVar, uri, varStr, e]
        | cons ch cs =>
          simp only [plainStr, e, List.all_cons, Bool.and_eq_true, Bool.not_eq_true', Bool.or_eq_false_iff] at h
          have : ch ≠ '?' := by
            rintro rfl
            exact absurd h.1.1 (by decide)
          simp [isVar, uri, varStr, e, exVar, h.2.1, this]
    · cases h

theorem q_var {s : String} (h : isQ s = true) : isVar exVar (uri s) = true := by
  unfold isQ at h
  split at h
  · rename_i e
    simp [isVar, uri, varStr, e, exVar]
  · cases h

theorem varName_var {s : String} (h : varName (.atom (uri s)) = some s) : isVar exVar (uri s) = true := by
  simp only [varName, uri, if_true] at h
  split at h
  · cases h
  · rename_i c r e
    by_cases h' : isQ s = true ∨ 'A' ≤ c ∧ c ≤ 'Z'
    · rcases h' with h | h
      · exact q_var h
      · have : c.isUpper = true := by
          simp only [Char.isUpper, Char.le_def, Bool.and_eq_true, decide_eq_true_eq, ge_iff_le] at h ⊢
          exact h
        simp [isVar, uri, varStr, e, exVar, this]
    · exact absurd ((if_neg h').symm.trans h) (by simp)

/-! ### The formulas that are made -/

section
variable {U : Use → Prop} {rl : String → SRole}

/-- how a name of a formula is used -/
def Cls (U : Use → Prop) (n : Nm) : Prop :=
  (n.ty = 7 ∧ isVar exVar n = true ∧ U (.var n.str)) ∨
  (n.ty = 3 ∧ n.str.toList ≠ [] ∧ n.str.toList.all Char.isDigit = true ∧ U (.num 3 n.str)) ∨
  (n.ty = 13 ∧ (U (.cst n.str) ∨ U (.fn n.str) ∨ U (.pr n.str) ∨ U (.prop n.str))) ∨
  (n.ty = 7 ∧ isVar exVar n = false)

/-- all names in scope are variables -/
def VSc (sc : List String) : Prop := ∀ s ∈ sc, isVar exVar (uri s) = true

theorem nm7 {n : Nm} (h : n.ty = 7) : n = uri n.str := by cases n; simp only at h; subst h; rfl
theorem nm13 {n : Nm} (h : n.ty = 13) : n = anon n.str := by cases n; simp only at h; subst h; rfl

theorem cls_nm (hk : ∀ u, U u → Keeps rl u) {sc : List String} (hs : VSc sc) {n : Nm} (ho : OutT sc (.nm n)) (hp : PlT U (.nm n)) : Cls U n := by
  simp only [PlT, useOf] at hp
  rcases ho.2.2 with h | ⟨h, _⟩ | ⟨h, h'⟩
  · rw [if_pos h] at hp
    have k := hk _ hp
    exact .inr (.inl ⟨k.1, k.2.1, k.2.2.1, by rw [← k.1]; exact hp⟩)
  · rw [if_neg (by omega), if_neg (by omega)] at hp
    exact .inr (.inr (.inl ⟨h, .inl hp⟩))
  · rw [if_neg (by omega), if_pos h] at hp
    refine .inl ⟨h, ?_, hp⟩
    rw [nm7 h]
    exact h'.elim q_var (hs _)

theorem op_sym {s : String} (h : s ∈ ["+", "*", "-", "/"]) : anonSymbol s = .sym s := by
  simp only [List.mem_cons, List.not_mem_nil, or_false] at h
  rcases h with rfl | rfl | rfl | rfl <;> decide +kernel

theorem cls_fn {f : Nm} (h : (f.ty = 13 ∨ f.ty = 7 ∧ f.str ∈ ["+", "*", "-", "/"]) ∧ U (.fn f.str)) : Cls U f := by
  rcases h with ⟨h | ⟨h, h'⟩, hu⟩
  · exact .inr (.inr (.inl ⟨h, .inr (.inl hu)⟩))
  · refine .inr (.inr (.inr ⟨h, ?_⟩))
    rw [nm7 h]
    exact sym_novar (op_sym h')

theorem cls_pr {f : Nm} (h : (f.ty = 13 ∨ f.ty = 7 ∧ Gkc.Js.Spec.Plain f.str) ∧ U (.pr f.str)) : Cls U f := by
  rcases h with ⟨h | ⟨h, h'⟩, hu⟩
  · exact .inr (.inr (.inl ⟨h, .inr (.inr (.inl hu))⟩))
  · refine .inr (.inr (.inr ⟨h, ?_⟩))
    rw [nm7 h]
    exact sym_novar (plain_sym h')

mutual
theorem cls_T (hk : ∀ u, U u → Keeps rl u) {sc : List String} (hs : VSc sc) : ∀ (t : FT), OutT sc t → PlT U t → ∀ n ∈ namesT t, Cls U n
  | .nm m, ho, hp, n, hn => by
    simp only [namesT, List.mem_singleton] at hn
    subst hn
    exact cls_nm hk hs ho hp
  | .app f as, ho, hp, n, hn => by
    simp only [namesT, List.mem_cons] at hn
    rcases hn with rfl | hn
    · exact cls_fn hp.1
    · exact cls_TL hk hs as ho.2.2 hp.2 n hn
theorem cls_TL (hk : ∀ u, U u → Keeps rl u) {sc : List String} (hs : VSc sc) : ∀ (ts : List FT), OutTL sc ts → PlTL U ts → ∀ n ∈ namesTL ts, Cls U n
  | [], _, _, n, hn => by cases hn
  | t :: ts, ho, hp, n, hn => by
    simp only [namesTL, List.mem_append] at hn
    exact hn.elim (cls_T hk hs t ho.1 hp.1 n) (cls_TL hk hs ts ho.2 hp.2 n)
end

theorem VSc.append {vs sc : List String} (h : ∀ s ∈ vs, varName (.atom (uri s)) = some s) (hs : VSc sc) : VSc (vs ++ sc) := by
  intro s hm
  exact (List.mem_append.1 hm).elim (fun hm => varName_var (h s hm)) (hs s)

/-- every name of a formula that is made -/
theorem cls_G (hk : ∀ u, U u → Keeps rl u) : ∀ (g : G) {sc : List String}, VSc sc → OutG sc g → PlG U g → ∀ n, nameIn n g.frm → Cls U n
  | .pr p, sc, hs, ho, hp, n, hn => by
    simp only [G.frm, nameIn, freeIn, boundIn, or_false, namesT, List.mem_singleton] at hn
    subst hn
    exact .inr (.inr (.inl ⟨ho.1, .inr (.inr (.inr hp))⟩))
  | .at p as, sc, hs, ho, hp, n, hn => by
    simp only [G.frm, nameIn, freeIn, boundIn, or_false, namesT, List.mem_cons] at hn
    rcases hn with rfl | hn
    · exact cls_pr hp.1
    · exact cls_TL hk hs as ho.2.2 hp.2 n hn
  | .neg g, sc, hs, ho, hp, n, hn => cls_G hk g hs ho hp n hn
  | .bin o a b, sc, hs, ho, hp, n, hn => by
    have : nameIn n a.frm ∨ nameIn n b.frm := by
      cases o <;> simp only [G.frm, nameIn, freeIn, freeInL, boundIn, boundInL, or_false] at hn ⊢ <;> rcases hn with (h | h) | (h | h) <;> simp [h]
    exact this.elim (cls_G hk a hs ho.1 hp.1 n) (cls_G hk b hs ho.2 hp.2 n)
  | .qu q vs g, sc, hs, ho, hp, n, hn => by
    have : nameIn n g.frm ∨ n ∈ vs.map uri := by
      cases q <;> simp only [G.frm, nameIn, freeIn, boundIn] at hn ⊢ <;> rcases hn with h | h | h <;> simp [h]
    rcases this with h | h
    · exact cls_G hk g (hs.append ho.2.1) ho.2.2 hp.2 n h
    · obtain ⟨s, hm, rfl⟩ := List.mem_map.1 h
      exact .inl ⟨rfl, varName_var (ho.2.1 s hm), hp.1 s hm⟩

theorem bound_G : ∀ (g : G) {sc : List String}, OutG sc g → ∀ n, boundIn n g.frm → isVar exVar n = true
  | .pr p, sc, _, n, hn => hn.elim
  | .at p as, sc, _, n, hn => hn.elim
  | .neg g, sc, ho, n, hn => bound_G g ho n hn
  | .bin o a b, sc, ho, n, hn => by
    have : boundIn n a.frm ∨ boundIn n b.frm := by
      cases o <;> simpa only [G.frm, boundIn, boundInL, or_false] using hn
    exact this.elim (bound_G a ho.1 n) (bound_G b ho.2 n)
  | .qu q vs g, sc, ho, n, hn => by
    have : n ∈ vs.map uri ∨ boundIn n g.frm := by
      cases q <;> simpa only [G.frm, boundIn] using hn
    rcases this with h | h
    · obtain ⟨s, hm, rfl⟩ := List.mem_map.1 h
      exact varName_var (ho.2.1 s hm)
    · exact bound_G g ho.2.2 n h

theorem two_G : ∀ g : G, TwoArg g.frm
  | .pr _ => .at _
  | .at _ _ => .at _
  | .neg g => .neg (two_G g)
  | .bin .and a b => .and (two_G a) (two_G b)
  | .bin .or a b => .or (two_G a) (two_G b)
  | .bin .imp a b => .imp (two_G a) (two_G b)
  | .bin .eqv a b => .eqv (two_G a) (two_G b)
  | .qu true vs g => .all _ (two_G g)
  | .qu false vs g => .ex _ (two_G g)

/-- anonymous constants with a role are no names of the clausifier -/
theorem ok13 (hS : Sig rl) {s : String} (h : rl s ≠ .unused) : OkName (anon s) := by
  refine .inr (.inr (.inr ⟨rfl, fun k => ⟨?_, ?_⟩⟩))
  · rintro rfl
    exact h (hS.sk k)
  · rintro rfl
    exact h (hS.df k)

theorem arith_unused (hS : Sig rl) {s : String} (h : rl (arithName s) = .func) : OkName (anon s) := by
  unfold arithName at h
  by_cases h1 : s = "$sum" ∨ s = "$difference" ∨ s = "$product" ∨ s = "$quotient"
  · refine .inr (.inr (.inr ⟨rfl, fun k => ?_⟩))
    have key : ∀ p : String, p ∈ ["$sk", "$df"] → s ≠ p ++ toString k := by
      intro p hp e
      have e' := congrArg (fun s => s.toList.take 3) e
      simp only [String.toList_append] at e'
      simp only [List.mem_cons, List.not_mem_nil, or_false] at hp
      rcases hp with rfl | rfl <;> rcases h1 with rfl | rfl | rfl | rfl <;> exact absurd e' (by simp)
    exact ⟨key "$sk" (by simp), key "$df" (by simp)⟩
  · simp only [not_or] at h1
    rw [if_neg h1.1, if_neg h1.2.1, if_neg h1.2.2.1, if_neg h1.2.2.2] at h
    exact ok13 hS (by rw [h]; simp)

theorem funSym_arith {f : Nm} (h : f.ty = 13 ∨ f.ty = 7 ∧ f.str ∈ ["+", "*", "-", "/"]) : funSym f = anonSymbol (arithName f.str) := by
  have ht : f.ty = 7 ∨ f.ty = 13 := h.elim .inr fun h => .inl h.1
  have e : ∀ s, s ∈ ["+", "*", "-", "/"] → anonSymbol s = .sym s := fun s => op_sym
  unfold funSym arithName
  simp only [ht, true_and]
  split
  · exact (e _ (by simp)).symm
  · split
    · exact (e _ (by simp)).symm
    · split
      · exact (e _ (by simp)).symm
      · split
        · exact (e _ (by simp)).symm
        · rcases h with h | ⟨h, h'⟩
          · rw [nm13 h, symbolOf_anon]; rfl
          · rw [nm7 h, symbolOf_uri']; exact (e _ h').symm

mutual
theorem wt_T (hS : Sig rl) (hk : ∀ u, U u → Keeps rl u) {sc : List String} (hs : VSc sc) : ∀ (t : FT), OutT sc t → PlT U t → WtFT exVar (sgOf rl) t
  | .nm n, ho, hp => by
    have hp' := hp
    simp only [PlT, useOf] at hp
    rcases ho.2.2 with h | ⟨h, _⟩ | ⟨h, h'⟩
    · rw [if_pos h] at hp
      have k := hk _ hp
      refine .inr ⟨.inr (.inr (.inl k)), ?_, ?_⟩
      · intro e
        omega
      · simp [symbolOf, k.1, sgOf]
    · rw [if_neg (by omega), if_neg (by omega)] at hp
      have k : rl n.str = .cnst := hk _ hp
      rw [nm13 h]
      refine .inr ⟨ok13 hS (by rw [k]; simp), fun _ hm => ho.2.1 ?_, ?_⟩
      · have : ∀ s ∈ opNames, s ∈ Gkc.Js.Spec.reserved := by decide
        exact this _ hm
      · rw [symbolOf_anon, sgOf_anon]
        exact k
    · left
      rw [nm7 h]
      exact h'.elim q_var (hs _)
  | .app f as, ho, hp => by
    obtain ⟨⟨h, hu⟩, hp2⟩ := hp
    have k := hk _ hu
    refine ⟨?_, ?_, ⟨k.2, ?_⟩, ?_, wt_TL hS hk hs as ho.2.2 hp2⟩
    · rcases h with h | ⟨h, _⟩
      · rw [nm13 h]
        exact arith_unused hS k.1
      · exact .inl h
    · rcases h with h | ⟨h, h'⟩
      · simp [isVar, h]
      · rw [nm7 h]
        exact sym_novar (op_sym h')
    · exact h.elim (fun h => .inr (.inl h)) fun h => .inl h.1
    · rw [funSym_arith h, sgOf_anon]
      exact k.1
theorem wt_TL (hS : Sig rl) (hk : ∀ u, U u → Keeps rl u) {sc : List String} (hs : VSc sc) : ∀ (ts : List FT), OutTL sc ts → PlTL U ts → WtFTL exVar (sgOf rl) ts
  | [], _, _ => trivial
  | t :: ts, ho, hp => ⟨wt_T hS hk hs t ho.1 hp.1, wt_TL hS hk hs ts ho.2 hp.2⟩
end

theorem symbolOf_pr {p : Nm} (h : p.ty = 13 ∨ p.ty = 7 ∧ Gkc.Js.Spec.Plain p.str) : symbolOf p = anonSymbol p.str := by
  rcases h with h | ⟨h, h'⟩
  · rw [nm13 h, symbolOf_anon]; rfl
  · rw [nm7 h, symbolOf_uri']; exact (plain_sym h').symm

theorem wt_G (hS : Sig rl) (hk : ∀ u, U u → Keeps rl u) : ∀ (g : G) {sc : List String}, VSc sc → OutG sc g → PlG U g → WtF exVar (sgOf rl) g.frm
  | .pr p, sc, hs, ho, hp, t, ht => by
    simp only [G.frm, atomIn] at ht
    subst ht
    have k : rl p.str = .prop := hk _ hp
    rw [nm13 ho.1]
    refine ⟨ok13 hS (by rw [k]; simp), fun _ hm => ho.2.2.1 ?_, by simp [isVar, anon], ?_⟩
    · have : ∀ s ∈ opNames, s ∈ Gkc.Js.Spec.reserved := by decide
      exact this _ hm
    · rw [symbolOf_anon, sgOf_anon]
      exact k
  | .at p as, sc, hs, ho, hp, t, ht => by
    simp only [G.frm, atomIn] at ht
    subst ht
    obtain ⟨⟨h, hu⟩, hp2⟩ := hp
    have k : rl p.str = .pred ∧ _ := hk _ hu
    refine ⟨?_, ?_, ?_, fun e => ?_, wt_TL hS hk hs as ho.2.2 hp2⟩
    · rcases h with h | ⟨h, _⟩
      · rw [nm13 h]
        exact ok13 hS (by rw [k.1]; simp)
      · exact .inl h
    · rcases h with h | ⟨h, h'⟩
      · simp [isVar, h]
      · rw [nm7 h]
        exact sym_novar (plain_sym h')
    · rw [symbolOf_pr h, sgOf_anon]
      exact k.1
    · rw [symbolOf_pr h] at e
      have := nameOf_anon p.str
      rw [e] at this
      rcases ho.2.1 with ⟨h1, _⟩ | ⟨_, h1⟩
      · exact absurd (show p.str ∈ Gkc.Js.Spec.reserved by rw [← this]; decide) h1
      · exact h1
  | .neg g, sc, hs, ho, hp, t, ht => wt_G hS hk g hs ho hp t ht
  | .bin o a b, sc, hs, ho, hp, t, ht => by
    have : atomIn t a.frm ∨ atomIn t b.frm := by
      cases o <;> simpa only [G.frm, atomIn, atomInL, or_false] using ht
    exact this.elim (wt_G hS hk a hs ho.1 hp.1 t) (wt_G hS hk b hs ho.2 hp.2 t)
  | .qu q vs g, sc, hs, ho, hp, t, ht => by
    have : atomIn t g.frm := by
      cases q <;> simpa only [G.frm, atomIn] using ht
    exact wt_G hS hk g (hs.append ho.2.1) ho.2.2 hp.2 t this

mutual
theorem headsT_G (hk : ∀ u, U u → Keeps rl u) : ∀ (t : FT), PlT U t → ∀ n ∈ headsT t, (n.ty = 13 ∨ n.ty = 7) ∧ (Sig rl → n.str ≠ "$ans")
  | .nm m, _, n, hn => by cases hn
  | .app f as, hp, n, hn => by
    simp only [headsT, List.mem_cons] at hn
    rcases hn with rfl | hn
    · refine ⟨hp.1.1.imp id And.left, fun hS e => ?_⟩
      have := (hk _ hp.1.2).1
      rw [e, show arithName "$ans" = "$ans" by decide, hS.ans] at this
      cases this
    · exact headsTL_G hk as hp.2 n hn
theorem headsTL_G (hk : ∀ u, U u → Keeps rl u) : ∀ (ts : List FT), PlTL U ts → ∀ n ∈ headsTL ts, (n.ty = 13 ∨ n.ty = 7) ∧ (Sig rl → n.str ≠ "$ans")
  | [], _, n, hn => by cases hn
  | t :: ts, hp, n, hn => by
    simp only [headsTL, List.mem_append] at hn
    exact hn.elim (headsT_G hk t hp.1 n) (headsTL_G hk ts hp.2 n)
end

theorem headIn_G (hk : ∀ u, U u → Keeps rl u) : ∀ (g : G) {sc : List String}, OutG sc g → PlG U g → ∀ n, headIn n g.frm → (n.ty = 13 ∨ n.ty = 7) ∧ (Sig rl → n.str ≠ "$ans")
  | .pr p, _, ho, hp, n, hn => by
    simp only [G.frm, headIn, headsA, List.mem_singleton] at hn
    subst hn
    refine ⟨.inl ho.1, fun hS e => ?_⟩
    have : rl n.str = .prop := hk _ hp
    rw [e, hS.ans] at this
    cases this
  | .at p as, _, ho, hp, n, hn => by
    simp only [G.frm, headIn, headsA, List.mem_cons] at hn
    rcases hn with rfl | hn
    · exact ⟨hp.1.1.imp id And.left, fun _ => (hk _ hp.1.2).2⟩
    · exact headsTL_G hk as hp.2 n hn
  | .neg g, _, ho, hp, n, hn => headIn_G hk g ho hp n hn
  | .bin o a b, _, ho, hp, n, hn => by
    have : headIn n a.frm ∨ headIn n b.frm := by
      cases o <;> simpa only [G.frm, headIn, headInL, or_false] using hn
    exact this.elim (headIn_G hk a ho.1 hp.1 n) (headIn_G hk b ho.2 hp.2 n)
  | .qu q vs g, _, ho, hp, n, hn => by
    have : headIn n g.frm := by
      cases q <;> simpa only [G.frm, headIn] using hn
    exact headIn_G hk g ho.2.2 hp.2 n this

/-- `$ans` is not used -/
theorem noans_G (hS : Sig rl) (hk : ∀ u, U u → Keeps rl u) {g : G} {sc : List String} (ho : OutG sc g) (hp : PlG U g) :
    NoPred "$ans" g.frm := by
  have key : ∀ n, n.ty = 13 ∨ n.ty = 7 → n.str ≠ "$ans" → symbolOf n ≠ .sym "$ans" := by
    rintro n (h | h) hn e
    · rw [nm13 h, symbolOf_anon] at e
      have := nameOf_anon n.str
      rw [show anonSymbol n.str = _ from e] at this
      exact hn this.symm
    · rw [nm7 h, symbolOf_uri'] at e
      exact hn (Const.sym.inj e)
  intro n hn
  exact key n (headIn_G hk g ho hp n hn).1 ((headIn_G hk g ho hp n hn).2 hS)

mutual
theorem fv_T {x : String} {sc : List String} : ∀ (t : FT), PlT U t → x ∈ Gkc.Js.fvT sc t → isVar exVar (uri x) = true ∧ U (.var x)
  | .nm n, hp, h => by
    simp only [Gkc.Js.fvT] at h
    split at h
    · rename_i hc
      simp only [List.mem_singleton] at h
      subst h
      simp only [PlT, useOf] at hp
      rw [if_neg (by omega), if_pos hc.1] at hp
      exact ⟨q_var hc.2.1, hp⟩
    · cases h
  | .app f as, hp, h => fv_TL as hp.2 h
theorem fv_TL {x : String} {sc : List String} : ∀ (ts : List FT), PlTL U ts → x ∈ Gkc.Js.fvTL sc ts → isVar exVar (uri x) = true ∧ U (.var x)
  | [], _, h => by cases h
  | t :: ts, hp, h => by
    simp only [Gkc.Js.fvTL, List.mem_append] at h
    exact h.elim (fv_T t hp.1) (fv_TL ts hp.2)
end

theorem fv_G {x : String} : ∀ (g : G) {sc : List String}, PlG U g → x ∈ Gkc.Js.fvG sc g → isVar exVar (uri x) = true ∧ U (.var x)
  | .pr _, _, _, h => by cases h
  | .at p as, _, hp, h => fv_TL as hp.2 h
  | .neg g, _, hp, h => fv_G g hp h
  | .bin o a b, _, hp, h => by
    simp only [Gkc.Js.fvG, List.mem_append] at h
    exact h.elim (fv_G a hp.1) (fv_G b hp.2)
  | .qu q vs g, _, hp, h => fv_G g hp.2 h

/-! ### What is put around them -/

/-- the names used in one way make the formulas admissible -/
theorem adm_names {f : Frm} {u : Fm} (hc : ∀ n, nameIn n f → Cls (· ∈ u.uses []) n) (hA : Apart u) (n m : Nm) (hn : nameIn n f) (hm : nameIn m f)
    (ho : okVar n = true) (h : okVar m = true ∨ isVar exVar n = true) (e : m.str = n.str) : m = n := by
  have h7 : ∀ n, nameIn n f → okVar n = true → n.ty = 7 := by
    intro n hn ho
    simp only [okVar, Bool.or_eq_true, beq_iff_eq] at ho
    rcases hc n hn with h | h | h | h <;> have := h.1 <;> omega
  have n7 := h7 n hn ho
  have fin : m.ty = 7 → m = n := by
    intro m7
    rw [nm7 m7, nm7 n7, e]
  by_cases hmo : okVar m = true
  · exact fin (h7 m hm hmo)
  have hv := h.resolve_left hmo
  have hu : Use.var n.str ∈ u.uses [] := by
    rcases hc n hn with h | h | h | h
    · exact h.2.2
    · have := h.1; omega
    · have := h.1; omega
    · rw [h.2] at hv; cases hv
  have ap := hA _ hu
  rcases hc m hm with h | h | h | h
  · exact fin h.1
  · exfalso
    rw [nm7 n7, ← e] at hv
    obtain ⟨_, h1, h2, _⟩ := h
    simp only [isVar, uri, varStr, exVar] at hv
    cases e' : m.str.toList with
    | nil => exact h1 e'
    | cons c r =>
      simp only [e', List.all_cons, Bool.and_eq_true] at h2
      simp only [e'] at hv
      have hd := h2.1
      simp [Char.isDigit, Char.isUpper, UInt32.le_iff_toNat_le] at hd hv
      rcases hv with hv | hv
      · omega
      · subst hv
        simp at hd
  · rw [e] at h
    rcases h.2 with h | h | h | h
    · exact absurd h ap.1
    · exact absurd h ap.2.1
    · exact absurd h ap.2.2.1
    · exact absurd h ap.2.2.2
  · exact fin h.1

variable {f : Fm} {g : G} {vs : List String}

theorem names_vars {n : Nm} : ∀ vs : List String, n ∈ namesTL (vs.map fun s => .nm (uri s)) → ∃ s ∈ vs, n = uri s
  | [], h => by cases h
  | v :: vs, h => by
    simp only [List.map_cons, namesTL, namesT, List.mem_append, List.mem_singleton] at h
    rcases h with h | h
    · exact ⟨v, by simp, h⟩
    · obtain ⟨s, hs, e⟩ := names_vars vs h
      exact ⟨s, by simp [hs], e⟩

theorem wt_vars {sg : Const → SRole} : ∀ vs : List String, (∀ s ∈ vs, isVar exVar (uri s) = true) → WtFTL exVar sg (vs.map fun s => .nm (uri s))
  | [], _ => trivial
  | v :: vs, h => ⟨.inl (h v (by simp)), wt_vars vs fun s hs => h s (by simp [hs])⟩

theorem cls_wrap (hk : ∀ u ∈ f.uses [], Keeps rl u) (hD : Done (· ∈ f.uses []) [] f g) (hv : ∀ x, x ∈ vs ↔ x ∈ f.fv [])
    (role : Gkc.Js.Role) (n : Nm) (hn : nameIn n (wrap role vs g.frm)) : Cls (· ∈ f.uses []) n := by
  have s0 : VSc [] := by intro s hs; cases hs
  have c0 := cls_G (rl := rl) hk g s0 hD.out hD.pl
  have vv : ∀ s ∈ vs, isVar exVar (uri s) = true ∧ Use.var s ∈ f.uses [] := by
    intro s hs
    exact fv_G g hD.pl ((hD.fv s).2 ((hv s).1 hs))
  have hans : isVar exVar (uri "$ans") = false := by decide +kernel
  cases role with
  | other =>
    simp only [wrap] at hn
    split at hn
    · exact c0 n hn
    · rcases hn with ⟨_, hn⟩ | hn | hn
      · exact c0 n (.inl hn)
      · obtain ⟨s, hs, rfl⟩ := List.mem_map.1 hn
        exact .inl ⟨rfl, vv s hs⟩
      · exact c0 n (.inr hn)
  | question =>
    simp only [wrap] at hn
    split at hn
    · exact c0 n hn
    · rcases hn with ⟨_, hn | hn | hn⟩ | hn | hn | hn | hn
      · exact c0 n (.inl hn)
      · simp only [freeIn, namesT, List.mem_cons] at hn
        rcases hn with rfl | hn
        · exact .inr (.inr (.inr ⟨rfl, hans⟩))
        · obtain ⟨s, hs, rfl⟩ := names_vars vs hn
          exact .inl ⟨rfl, vv s hs⟩
      · exact hn.elim
      · obtain ⟨s, hs, rfl⟩ := List.mem_map.1 hn
        exact .inl ⟨rfl, vv s hs⟩
      · exact c0 n (.inr hn)
      · exact hn.elim
      · exact hn.elim

/-- a formula with what is put around it is admissible -/
theorem adm_wrap (hS : Sig rl) (hk : ∀ u ∈ f.uses [], Keeps rl u) (hA : Apart f) (hD : Done (· ∈ f.uses []) [] f g) (hv : ∀ x, x ∈ vs ↔ x ∈ f.fv [])
    (role : Gkc.Js.Role) : Adm exVar (sgOf rl) (wrap role vs g.frm) := by
  have s0 : VSc [] := by intro s hs; cases hs
  have vv : ∀ s ∈ vs, isVar exVar (uri s) = true ∧ Use.var s ∈ f.uses [] := by
    intro s hs
    exact fv_G g hD.pl ((hD.fv s).2 ((hv s).1 hs))
  have b0 := bound_G g hD.out
  have w0 := wt_G hS hk g s0 hD.out hD.pl
  have hans : isVar exVar (uri "$ans") = false := by decide +kernel
  have nm := adm_names (cls_wrap hk hD hv role) hA
  cases role with
  | other =>
    simp only [wrap] at nm ⊢
    by_cases e : vs.isEmpty = true
    · rw [if_pos e] at nm ⊢
      exact ⟨two_G g, b0, nm, w0⟩
    · rw [if_neg e] at nm ⊢
      refine ⟨.all _ (two_G g), fun n hn => ?_, nm, w0⟩
      rcases hn with hn | hn
      · obtain ⟨s, hs, rfl⟩ := List.mem_map.1 hn
        exact (vv s hs).1
      · exact b0 n hn
  | question =>
    simp only [wrap] at nm ⊢
    by_cases e : vs.isEmpty = true
    · rw [if_pos e] at nm ⊢
      exact ⟨.neg (two_G g), b0, nm, w0⟩
    · rw [if_neg e] at nm ⊢
      refine ⟨.all _ (.imp (two_G g) (.at _)), fun n hn => ?_, nm, ?_⟩
      · rcases hn with hn | hn | hn | hn
        · obtain ⟨s, hs, rfl⟩ := List.mem_map.1 hn
          exact (vv s hs).1
        · exact b0 n hn
        · exact hn.elim
        · exact hn.elim
      · intro t ht
        rcases ht with ht | ht | ht
        · exact w0 t ht
        · cases ht
          refine ⟨.inl rfl, hans, ?_, fun e => ?_, wt_vars vs fun s hs => (vv s hs).1⟩
          · rw [symbolOf_uri', ← anonSymbol_ans, sgOf_anon, hS.ans]
          · rw [symbolOf_uri'] at e
            exact absurd e (by decide)
        · exact ht.elim

end
end Gkc.Props.Js
