import Verif.Answers
import Verif.Props.AnsPos
import Verif.Props.Pure
import Verif.Props.Vec
import Mathlib.Data.List.Perm.Subperm
/-
C50: answers that are given are answers, and each is listed once.
-/
namespace Gkc.Props
open Gkc Gkc.Clausify
open Gkc.Term (vars varsL)

/-! ### Truth in an expanded structure (specification) -/

/-- the structure with its domain -/
def Str.fo {D : Type} (S : Str D) : FO := ⟨D, S.cst, S.fn, S.pr⟩

/-- the values in `S` of the terms -/
def Str.vals {D : Type} (S : Str D) (ρ : Nat → D) (ts : List Term) : List D := S.fo.evalL ρ ts

/-- `S` is `M` with values for the new symbols; what the propositional symbols would mean as
constants is left open -/
def Expands (N : String → Prop) (sg : Const → SRole) (M : FO) (S : Str M.D) : Prop :=
  ∀ k, (∀ s, N s → k ≠ .sym s) → (sg k ≠ .prop → S.cst k = M.cst k) ∧ S.fn k = M.fn k

/-- the values `ds` of the variables `fv` make the question true in `M` -/
def Satisfies (c : VarCfg) (M : FO) (fv : List Nm) (q : Frm) (ds : List M.D) : Prop :=
  ∃ τ, M.str.Val c τ ∧ fv.map τ = ds ∧ M.str.fint.holds τ q

/-- the predicate is not used in the formula -/
def NoPred (p : String) (f : Frm) : Prop := ∀ n, headIn n f → symbolOf n ≠ .sym p

/-! ### A problem and its clauses -/

theorem ans_old {sn nr : Nat} {s : String} (h : New sn nr s) : Const.sym "$ans" ≠ .sym s := by
  intro e
  have key : ∃ t, s.toList = '$' :: 's' :: 'k' :: t ∨ s.toList = '$' :: 'd' :: 'f' :: t := by
    rcases h with ⟨j, _, rfl⟩ | ⟨j, _, rfl⟩
    · exact ⟨(toString j).toList, .inl (by simp [skName, uri, String.toList_append])⟩
    · exact ⟨(toString j).toList, .inr (by simp [dfName, uri, String.toList_append])⟩
  obtain ⟨t, ht⟩ := key
  rw [← Const.sym.inj e] at ht
  simp at ht

/-- a structure in which the formulas are true has an expansion in which the clauses are -/
theorem problem_true {c : VarCfg} {strat : Bool} {fuel sn nr : Nat} {items : List Item} {fcs : List FCl}
    (sg : Const → SRole) (hF : Fresh sn nr sg) (hp : sg (.sym "$pr") = .unused) (htr : sg (.sym "$true") = .prop)
    (hnum : ∀ k, isNumber k → sg k = .cnst) (ha : ∀ it ∈ items, Adm c sg it.frm)
    (hc : Clausifies c strat fuel sn nr items fcs) (input : List (List ALit))
    (hi : ∀ cl ∈ input, ∃ fc ∈ fcs, ∃ ls, buildCl c fc = some ls ∧ NewCl ls cl)
    (M : FO) (he : ∀ a b, M.pr (.sym "=") [a, b] ↔ a = b) (h1 : M.pr (.sym "$true") []) (h0 : ¬ M.pr (.sym "$false") [])
    (d0 d1 : M.D) (hd : d0 ≠ d1) (sat : ∀ it ∈ items, Sat c M.str it.prepared) :
    ∃ (sg' : Const → SRole) (S : Str M.D), Ext sn nr sg sg' ∧ Off (New sn nr) M.str S ∧
      (∀ k, isNumber k → clRole sg' k = .cnst) ∧ (∀ cl ∈ input, InputOk (clRole sg') cl) ∧
      (∀ a b, (S.cl sg' d0 d1).pr (.sym "=") [a, b] ↔ a = b) ∧
      ∀ cl ∈ input, (S.cl sg' d0 d1).holds (plain cl) := by
  have hT : M.str.Truth := ⟨h1, h0⟩
  have adm : ∀ it ∈ items, Adm c sg it.prepared := by
    intro it hm
    have a := ha it hm
    unfold Item.prepared
    split
    · exact ⟨.neg a.two, a.bound, a.names, a.wt⟩
    · exact a
  obtain ⟨sg', x, w, k⟩ := clausifies_ok hc sg hF adm
  obtain ⟨S, o, hS⟩ := k M.str hT sat
  have old : ∀ q : String, q ∈ ["=", "$true", "$pr"] → ∀ s, New sn nr s → Const.sym q ≠ .sym s := by
    intro q hq s hs e
    refine new_ne hs ?_
    rw [← Const.sym.inj e]
    simp only [List.mem_cons, List.not_mem_nil, or_false] at hq
    rcases hq with rfl | rfl | rfl <;> simp
  have hp' : sg' (.sym "$pr") = .unused := by rw [x _ (old _ (by simp)), hp]
  have htr' : sg' (.sym "$true") = .prop := by rw [x _ (old _ (by simp)), htr]
  have hnum' : ∀ k, isNumber k → clRole sg' k = .cnst := by
    intro k hk
    have : sg' k = sg k := x k (fun s _ e => by subst e; exact hk)
    unfold clRole
    rw [if_neg (by rintro rfl; exact hk), this, hnum k hk]
  have build := fun {fc : FCl} (hm : fc ∈ fcs) {Ls} (e : buildCl c fc = some Ls) =>
    buildCl_ok hp' (S.cl_reads hp' hd) htr' (o.truth hT) (w fc hm) e
  refine ⟨sg', S, x, o, hnum', ?_, ?_, ?_⟩
  · intro cl hcl
    obtain ⟨fc, hm, ls, e, hn⟩ := hi cl hcl
    have key : ∀ l ∈ cl, l.lit ∈ ls := fun l hl => by rw [← hn.1]; exact List.mem_map.2 ⟨l, hl, rfl⟩
    exact ⟨fun l hl => ((build hm e).1 _ (key l hl)).1, fun l hl => ((build hm e).1 _ (key l hl)).2, hn.2⟩
  · intro a b
    have : (S.cl sg' d0 d1).pr (.sym "=") [a, b] = S.pr (.sym "=") [a, b] := by simp [Str.cl, aTrue, aFalse]
    rw [this, (o (.sym "=") (old _ (by simp))).2.2]
    exact he a b
  · intro cl hcl
    obtain ⟨fc, hm, ls, e, hn⟩ := hi cl hcl
    have : plain cl = ls := hn.1
    rw [this]
    exact (build hm e).2 (hS fc hm)

/-- the structure with another meaning for `$ans` -/
noncomputable def withAns (M : FO) (R : List M.D → Prop) : FO :=
  { M with pr := fun k ds => open Classical in if k = .sym "$ans" then R ds else M.pr k ds }

theorem withAns_ne {M : FO} {R : List M.D → Prop} {k : Const} (h : k ≠ .sym "$ans") : (withAns M R).pr k = M.pr k := by
  funext ds; simp [withAns, h]

theorem withAns_ans {M : FO} {R : List M.D → Prop} : (withAns M R).pr (.sym "$ans") = R := by
  funext ds; simp [withAns]

theorem withAns_holds {M : FO} {R : List M.D → Prop} {f : Frm} (h : NoPred "$ans" f) (τ : Nm → M.D) :
    (withAns M R).str.fint.holds τ f ↔ M.str.fint.holds τ f :=
  holds_congr f (fun _ _ => rfl) (fun n hn => ⟨rfl, withAns_ne (M := M) (R := R) (h n hn)⟩)

/-- the formulas of the problem that are to be proved: conjectures and questions without variables -/
def IsGoal (e : Entry) (q : Frm) : Prop := e = .item ⟨true, q⟩ ∨ e = .ask [] q

/-- `$ans` is not used by the user -/
def NoAns : Entry → Prop
  | .item it => NoPred "$ans" it.frm
  | .ask _ q => NoPred "$ans" q

/-- the formulas are true when `$ans` holds of what satisfies a question -/
theorem entries_sat {c : VarCfg} {sg : Const → SRole} {es : List Entry} (hn : ∀ e ∈ es, NoAns e)
    (ha : ∀ e ∈ es, Adm c sg e.toItem.frm) {M : FO} {R : List M.D → Prop}
    (hR : ∀ fv q ds, fv ≠ [] → Entry.ask fv q ∈ es → Satisfies c M fv q ds → R ds)
    (hax : ∀ f, Entry.item ⟨false, f⟩ ∈ es → Sat c M.str f)
    (hg : ∀ e ∈ es, ∀ q, IsGoal e q → ∀ τ, M.str.Val c τ → ¬ M.str.fint.holds τ q) :
    ∀ it ∈ es.map Entry.toItem, Sat c (withAns M R).str it.prepared := by
  intro it hm
  obtain ⟨e, he, rfl⟩ := List.mem_map.1 hm
  intro τ hτ
  have hτ' : M.str.Val c τ := hτ
  have neg : ∀ q, NoPred "$ans" q → IsGoal e q → (withAns M R).str.fint.holds τ (.neg q) := by
    intro q hq hgl h
    exact hg e he q hgl τ hτ' ((withAns_holds (M := M) (R := R) hq τ).1 h)
  have na := hn e he
  cases e with
  | item it =>
    obtain ⟨cj, f⟩ := it
    cases cj with
    | false => exact (withAns_holds (M := M) (R := R) na τ).2 (hax f he τ hτ')
    | true => exact neg f na (.inl rfl)
  | ask fv q =>
    cases fv with
    | nil => exact neg q na (.inr rfl)
    | cons v vs =>
      show (withAns M R).str.fint.holds τ (.all (v :: vs) _)
      intro ρ hv
      show (withAns M R).str.fint.holds ρ q → (withAns M R).pr (symbolOf (uri "$ans")) _
      intro hq
      have hs : symbolOf (uri "$ans") = .sym "$ans" := by decide
      rw [hs, withAns_ans]
      refine hR (v :: vs) q _ (by simp) he ⟨ρ, ?_, ?_, (withAns_holds (M := M) (R := R) na ρ).1 hq⟩
      · intro n hnv
        by_cases hm : n ∈ v :: vs
        · have := (ha _ he).bound n (.inl hm)
          rw [hnv] at this
          cases this
        · rw [hv n hm]; exact hτ' n hnv
      · have : ∀ l : List Nm, (withAns M R).str.fint.evL ρ (l.map FT.nm) = l.map ρ := by
          intro l
          induction l with
          | nil => rfl
          | cons a l ih => exact congrArg (ρ a :: ·) ih
        exact (this (v :: vs)).symm

mutual
theorem atom_head {n : Nm} {t : FT} (hn : n ∈ headsA t) : ∀ f, atomIn t f → headIn n f
  | .at _, h => by cases h; exact hn
  | .neg f, h => atom_head hn f h
  | .par f, h => atom_head hn f h
  | .and fs, h => atom_headL hn fs h
  | .or fs, h => atom_headL hn fs h
  | .imp fs, h => atom_headL hn fs h
  | .eqv a b, h => h.imp (atom_head hn a) (atom_head hn b)
  | .all _ f, h => atom_head hn f h
  | .ex _ f, h => atom_head hn f h
theorem atom_headL {n : Nm} {t : FT} (hn : n ∈ headsA t) : ∀ fs, atomInL t fs → headInL n fs
  | [], h => h.elim
  | f :: fs, h => h.imp (atom_head hn f) (atom_headL hn fs)
end

theorem freeOfAns {c : VarCfg} {sg : Const → SRole} {f : Frm} (h : NoPred "$ans" f) (w : WtF c sg f) : FreeOfAns f := by
  rintro t ht ⟨p, as, rfl, hp⟩
  have hm : headIn p f := atom_head (by simp [headsA]) f ht
  rw [primOf_ok (w.head hm).1 (.inl rfl)] at hp
  exact h p hm (Option.some.inj hp)

/-- the clausifier keeps the answer literals positive -/
theorem entries_pos {c : VarCfg} {strat : Bool} {fuel sn nr : Nat} {sg : Const → SRole} {es : List Entry} {fcs : List FCl}
    (ha : ∀ e ∈ es, Adm c sg e.toItem.frm) (hn : ∀ e ∈ es, NoAns e)
    (hc : Clausifies c strat fuel sn nr (es.map Entry.toItem) fcs) : ∀ fc ∈ fcs, FPos fc := by
  refine clausifies_pos hc (fun it hm => ?_) (fun it hm => ?_)
  · obtain ⟨e, he, rfl⟩ := List.mem_map.1 hm
    unfold Item.prepared
    split
    · exact .neg (ha e he).two
    · exact (ha e he).two
  · obtain ⟨e, he, rfl⟩ := List.mem_map.1 hm
    have a := ha e he
    have na := hn e he
    cases e with
    | item it =>
      refine .inl ?_
      have := freeOfAns na a.wt
      unfold Item.prepared
      split
      · exact fun t ht => this t ht
      · exact this
    | ask fv q =>
      cases fv with
      | nil => exact .inl (fun t ht => freeOfAns na a.wt t ht)
      | cons v vs =>
        refine .inr ⟨v :: vs, uri "$ans", _, q, rfl, freeOfAns (sg := sg) (c := c) na (fun t ht => a.wt t ?_)⟩
        exact .inl ht

/-- C50.  If the problem does not use `$ans`, no stored clause has a negative literal with `$ans`: the
negation push, moving quantifiers, Skolem functions, distribution with new predicates and flattening
leave the answer literal of a question positive and put it into no definition. -/
theorem C50_answer_literals_positive {c : VarCfg} {strat : Bool} {fuel sn nr : Nat} {sg : Const → SRole} {es : List Entry}
    {fcs : List FCl} (ha : ∀ e ∈ es, Adm c sg e.toItem.frm) (hn : ∀ e ∈ es, NoAns e)
    (hc : Clausifies c strat fuel sn nr (es.map Entry.toItem) fcs) (fc : FCl) (hm : fc ∈ fcs) (ls : List Gkc.Lit)
    (e : buildCl c fc = some ls) (l : Gkc.Lit) (hl : l ∈ ls) (as : List Term) (hl' : l.atom = .app (.sym "$ans") as) : l.neg = false :=
  buildCl_ans (entries_pos ha hn hc fc hm) e l hl as hl'

/-- C50 (partial).  A problem with questions is turned into clauses and the loop reports an answer
`$ans(t1,...) | ... | $ans(tn,...)`.  Take any structure with at least two elements in which `=` is
identity, `$true` and `$false` mean truth and falsity, and all axioms are true.  Then some conjecture or
question without variables is true for some values, or the answer is an answer: the Skolem functions
can be given a meaning such that, whatever the variables of the answer stand for, for one of its
literals `$ans(t)` the values of the terms `t` make a question of the problem true.

Assumed, besides what is assumed in C40: `$ans` is not used in the problem itself.  Missing: as in C40. -/
theorem C50_answers_are_answers_partial {c : VarCfg} {strat : Bool} {fuel sn nr : Nat} {es : List Entry} {fcs : List FCl}
    (sg : Const → SRole) (hF : Fresh sn nr sg) (hp : sg (.sym "$pr") = .unused) (htr : sg (.sym "$true") = .prop)
    (hnum : ∀ k, isNumber k → sg k = .cnst) (ha : ∀ e ∈ es, Adm c sg e.toItem.frm) (hn : ∀ e ∈ es, NoAns e)
    (hc : Clausifies c strat fuel sn nr (es.map Entry.toItem) fcs) (wd : Const → Int) (hh m : Term → Nat) (input : List (List ALit))
    (hi : ∀ cl ∈ input, ∃ fc ∈ fcs, ∃ ls, buildCl c fc = some ls ∧ NewCl ls cl) (s : PState)
    (h : Run ⟨some, wd, hh, m⟩ ShortActive input s) (cl : List Gkc.Lit) (hcl : cl ∈ s.answers)
    (M : FO) (he : ∀ a b, M.pr (.sym "=") [a, b] ↔ a = b) (h1 : M.pr (.sym "$true") []) (h0 : ¬ M.pr (.sym "$false") [])
    (d0 d1 : M.D) (hd : d0 ≠ d1) (hax : ∀ f, Entry.item ⟨false, f⟩ ∈ es → Sat c M.str f) :
    (∃ e ∈ es, ∃ q, IsGoal e q ∧ ∃ τ, M.str.Val c τ ∧ M.str.fint.holds τ q) ∨
    ∃ S : Str M.D, Expands (New sn nr) sg M S ∧ ∀ ρ : Nat → M.D, ∃ ts, ⟨false, .app (.sym "$ans") ts⟩ ∈ cl ∧
      ∃ fv q, Entry.ask fv q ∈ es ∧ Satisfies c M fv q (S.vals ρ ts) := by
  by_cases goal : ∃ e ∈ es, ∃ q, IsGoal e q ∧ ∃ τ, M.str.Val c τ ∧ M.str.fint.holds τ q
  · exact .inl goal
  refine .inr ?_
  let R : List M.D → Prop := fun ds => ∃ fv q, Entry.ask fv q ∈ es ∧ Satisfies c M fv q ds
  have hsat := entries_sat (R := R) hn ha (fun fv q ds _ hm hs => ⟨fv, q, hm, hs⟩) hax
    (fun e hm q hg τ hτ hh => goal ⟨e, hm, q, hg, τ, hτ, hh⟩)
  have a1 : (withAns M R).pr (.sym "$true") [] := by rw [withAns_ne (by decide)]; exact h1
  have a0 : ¬ (withAns M R).pr (.sym "$false") [] := by rw [withAns_ne (by decide)]; exact h0
  obtain ⟨sg', S, x, o, hnum', inp, eq, tru⟩ := problem_true sg hF hp htr hnum
    (fun it hm => by obtain ⟨e, hm', rfl⟩ := List.mem_map.1 hm; exact ha e hm') hc input hi (withAns M R)
    (fun a b => by rw [withAns_ne (by decide)]; exact he a b) a1 a0 d0 d1 hd hsat
  have hroles : Roles ⟨some, wd, hh, m⟩ (clRole sg') := ⟨EvRole.some _, hnum'⟩
  have hfit : Fits ⟨some, wd, hh, m⟩ (Interp.ofFO (S.cl sg' d0 d1)) :=
    ⟨EvSound.some _, ⟨by simp [Interp.ofFO, Str.cl, aTrue, aFalse], by simp [Interp.ofFO, Str.cl, aFalse]⟩, ofFO_eqInterp _ eq⟩
  have htrue : ∀ cl ∈ input, ClTrue (Interp.ofFO (S.cl sg' d0 d1)) (plain cl) := by
    intro k hk
    refine (ofFO_holds _ _ ?_).2 (tru k hk)
    intro l hl v e
    obtain ⟨k', hk', rfl⟩ := List.mem_map.1 hl
    exact ((inp k hk).roles k' hk').nonvar v e
  have oldT : ∀ q ∈ ["$true", "$false"], ∀ s, New sn nr s → Const.sym q ≠ .sym s := by
    intro q hq s hs e
    refine new_ne hs ?_
    rw [← Const.sym.inj e]
    simp only [List.mem_cons, List.not_mem_nil, or_false] at hq
    rcases hq with rfl | rfl <;> simp
  have b1 : (S.cl sg' d0 d1).pr (.sym "$true") [] := by
    have : (S.cl sg' d0 d1).pr (.sym "$true") [] = S.pr (.sym "$true") [] := by simp [Str.cl, aTrue, aFalse]
    rw [this, (o _ (oldT _ (by simp))).2.2]; exact a1
  have b0 : ¬ (S.cl sg' d0 d1).pr (.sym "$false") [] := by
    have : (S.cl sg' d0 d1).pr (.sym "$false") [] = S.pr (.sym "$false") [] := by simp [Str.cl, aTrue, aFalse]
    rw [this, (o _ (oldT _ (by simp))).2.2]; exact a0
  refine ⟨(S.cl sg' d0 d1).str, ?_, ?_⟩
  · intro k hk
    refine ⟨fun hkp => ?_, (o k hk).2.1⟩
    have : sg' k ≠ .prop := by rw [x k hk]; exact hkp
    show (if sg' k = .prop then _ else S.cst k) = _
    rw [if_neg this]
    exact (o k hk).1
  · intro ρ
    have free := run_free hfit hroles inp htrue (p := .sym "$ans") (b := true) (by
      intro k hk l hl hd hneg
      obtain ⟨l', hl', rfl⟩ := List.mem_map.1 hl
      cases ea : l'.atom with
      | var v => simp [hdApp, ea] at hd
      | const q => simp [hdApp, ea] at hd
      | app f as =>
        simp only [hdApp, ea, Option.some.injEq] at hd
        subst hd
        obtain ⟨fc, hm, ls, eb, hnc⟩ := hi k hk
        have : l'.neg = false := buildCl_ans (entries_pos ha hn hc fc hm) eb l'.lit
          (by rw [← hnc.1]; exact List.mem_map.2 ⟨l', hl', rfl⟩) as ea
        rw [this] at hneg
        cases hneg) h
    obtain ⟨l, hl, ⟨as, ea⟩, ht⟩ := C33_answers_hold_partial _ _ hroles input inp s h _ hfit b1 b0 htrue cl hcl (fun v => (ρ v, True))
    have hneg : l.neg = false := by
      have := free.answers cl hcl l hl (by simp [hdApp, ea])
      simpa using this
    refine ⟨as, ?_, ?_⟩
    · have : l = ⟨false, .app (.sym "$ans") as⟩ := by cases l; simp_all
      rw [← this]; exact hl
    · simp only [Lit.tr, hneg, Bool.false_eq_true, if_false, ea] at ht
      rw [ofFO_atom] at ht
      have e1 : (S.cl sg' d0 d1).pr (.sym "$ans") = S.pr (.sym "$ans") := by
        funext ds; simp [Str.cl, aTrue, aFalse]
      rw [e1, (o _ (fun s hs => ans_old hs)).2.2] at ht
      have ht : (withAns M R).pr (.sym "$ans") _ := ht
      rw [withAns_ans] at ht
      exact ht

/-- C50 (partial).  If the loop refutes a problem with questions, then in every structure as above in
which all axioms are true, some conjecture or question without variables is true for some values; with
none of these in the problem, there is no such structure: a proof without answer to a question with
variables means that the axioms contradict each other.  Missing: as in C40. -/
theorem C50_proof_without_answer_partial {c : VarCfg} {strat : Bool} {fuel sn nr : Nat} {es : List Entry} {fcs : List FCl}
    (sg : Const → SRole) (hF : Fresh sn nr sg) (hp : sg (.sym "$pr") = .unused) (htr : sg (.sym "$true") = .prop)
    (hnum : ∀ k, isNumber k → sg k = .cnst) (ha : ∀ e ∈ es, Adm c sg e.toItem.frm) (hn : ∀ e ∈ es, NoAns e)
    (hc : Clausifies c strat fuel sn nr (es.map Entry.toItem) fcs) (wd : Const → Int) (hh m : Term → Nat) (input : List (List ALit))
    (hi : ∀ cl ∈ input, ∃ fc ∈ fcs, ∃ ls, buildCl c fc = some ls ∧ NewCl ls cl) (s : PState)
    (h : Run ⟨some, wd, hh, m⟩ ShortActive input s) (hs : s.refuted = true)
    (M : FO) (he : ∀ a b, M.pr (.sym "=") [a, b] ↔ a = b) (h1 : M.pr (.sym "$true") []) (h0 : ¬ M.pr (.sym "$false") [])
    (d0 d1 : M.D) (hd : d0 ≠ d1) (hax : ∀ f, Entry.item ⟨false, f⟩ ∈ es → Sat c M.str f) :
    ∃ e ∈ es, ∃ q, IsGoal e q ∧ ∃ τ, M.str.Val c τ ∧ M.str.fint.holds τ q := by
  by_cases goal : ∃ e ∈ es, ∃ q, IsGoal e q ∧ ∃ τ, M.str.Val c τ ∧ M.str.fint.holds τ q
  · exact goal
  exfalso
  let R : List M.D → Prop := fun _ => True
  have hsat := entries_sat (R := R) hn ha (fun _ _ _ _ _ _ => trivial) hax
    (fun e hm q hg τ hτ hh => goal ⟨e, hm, q, hg, τ, hτ, hh⟩)
  have key := C40_proof_means_consequence_partial sg hF hp htr hnum
    (fun it hm => by obtain ⟨e, hm', rfl⟩ := List.mem_map.1 hm; exact ha e hm') hc wd hh m input hi s h hs (withAns M R)
    (fun a b => by rw [withAns_ne (by decide)]; exact he a b) (by rw [withAns_ne (by decide)]; exact h1)
    (by rw [withAns_ne (by decide)]; exact h0) d0 d1 hd
    (fun it hm hcj => by have := hsat it hm; rwa [Item.prepared, if_neg (by simp [hcj])] at this)
  obtain ⟨it, hm, hcj, τ, hτ, ht⟩ := key
  have := hsat it hm
  rw [Item.prepared, if_pos hcj] at this
  exact this τ hτ ht

/-! ### The list of answers -/

theorem sameLits_iff : ∀ (a b : List Gkc.Lit), a.length = b.length → (sameLits a b = true ↔ a = b)
  | [], [], _ => by simp [sameLits]
  | [], _ :: _, h => by simp at h
  | _ :: _, [], h => by simp at h
  | x :: xs, y :: ys, h => by
    have ih := sameLits_iff xs ys (by simpa using h)
    rcases x with ⟨b1, t1⟩
    rcases y with ⟨b2, t2⟩
    have hb := Term.beq_iff t1 t2
    by_cases hn : b1 = b2
    · by_cases ht : t1 = t2
      · have := hb.2 ht
        subst ht
        subst hn
        simp [sameLits, this, ih]
      · have : Term.beq t1 t2 = false := by
          cases e : Term.beq t1 t2 with
          | false => rfl
          | true => exact absurd (hb.1 e) ht
        simp [sameLits, this, ht]
    · simp [sameLits, hn]

theorem sameAnswers_eq (a b : AnsCl) : sameAnswers (some a) (some b) = some (decide (a = b)) := by
  cases a with
  | fact a =>
    cases b with
    | fact b =>
      simp only [sameAnswers, Option.some.injEq, AnsCl.fact.injEq]
      rw [Bool.eq_iff_iff, decide_eq_true_iff]
      exact Term.beq_iff a b
    | rule b => simp [sameAnswers]
  | rule a =>
    cases b with
    | fact b => simp [sameAnswers]
    | rule b =>
      simp only [sameAnswers, Option.some.injEq, AnsCl.rule.injEq]
      by_cases h : a.length = b.length
      · rw [if_neg (by simp [h]), Bool.eq_iff_iff, decide_eq_true_iff]
        exact sameLits_iff a b h
      · rw [if_pos (by simp [h])]
        have : a ≠ b := fun e => h (by rw [e])
        simp [this]

theorem registerGo_eq (x : AnsCl) (all : List Answer) : ∀ old : List AnsCl,
    registerGo (some x) all (old.map some) = some (if x ∈ old then all else all ++ [some x])
  | [] => by simp [registerGo]
  | a :: old => by
    simp only [List.map_cons, registerGo, sameAnswers_eq]
    by_cases h : a = x
    · simp [h]
    · have h' : ¬ x = a := fun e => h e.symm
      simp [h, h', registerGo_eq x all old]

theorem register_eq (all : List AnsCl) (x : AnsCl) :
    register (all.map some) (some x) = some ((if x ∈ all then all else all ++ [x]).map some) := by
  rw [register, registerGo_eq]
  split <;> simp

/-- C50.  Of the answers that are found, each is listed once, nothing else is listed, and what is
listed stays in its place when more answers are found. -/
theorem C50_answers_listed_once (xs : List AnsCl) :
    ∃ ys : List AnsCl, registerAll [] (xs.map some) = some (ys.map some) ∧ ys.Nodup ∧ (∀ x, x ∈ ys ↔ x ∈ xs) ∧
      ∀ zs, ∃ ws, registerAll [] ((xs ++ zs).map some) = some ((ys ++ ws).map some) := by
  have gen : ∀ (xs all : List AnsCl), all.Nodup → ∃ ws : List AnsCl, registerAll (all.map some) (xs.map some) = some ((all ++ ws).map some) ∧
      (all ++ ws).Nodup ∧ ∀ x, x ∈ all ++ ws ↔ x ∈ all ∨ x ∈ xs := by
    intro xs
    induction xs with
    | nil => intro all h; exact ⟨[], by simp [registerAll], by simpa using h, by simp⟩
    | cons x xs ih =>
      intro all h
      simp only [List.map_cons, registerAll, register_eq, Option.bind_some]
      by_cases hx : x ∈ all
      · obtain ⟨ws, h1, h2, h3⟩ := ih all h
        refine ⟨ws, by rw [if_pos hx]; exact h1, h2, fun y => ?_⟩
        rw [h3 y]
        grind
      · obtain ⟨ws, h1, h2, h3⟩ := ih (all ++ [x]) (by grind)
        refine ⟨x :: ws, by rw [if_neg hx, h1]; simp, by simpa using h2, fun y => ?_⟩
        have := h3 y
        simp only [List.append_assoc, List.singleton_append] at this
        rw [this]
        grind
  have app : ∀ (xs zs all : List Answer), registerAll all (xs ++ zs) = (registerAll all xs).bind (registerAll · zs) := by
    intro xs
    induction xs with
    | nil => intro zs all; rfl
    | cons x xs ih =>
      intro zs all
      simp only [List.cons_append, registerAll]
      cases register all x with
      | none => rfl
      | some t => exact ih zs t
  obtain ⟨ys, h1, h2, h3⟩ := gen xs [] (by simp)
  refine ⟨ys, by simpa using h1, by simpa using h2, fun x => by simpa using h3 x, fun zs => ?_⟩
  obtain ⟨ws, k1, -, -⟩ := gen zs ys (by simpa using h2)
  refine ⟨ws, ?_⟩
  rw [List.map_append, app]
  have : registerAll [] (xs.map some) = some (ys.map some) := by simpa using h1
  rw [this]
  exact k1

/-- C50.  The search is over exactly when the required number of different answers was found. -/
theorem C50_enough_answers (r : Nat) (xs : List AnsCl) (ys : List Answer) (h : registerAll [] (xs.map some) = some ys) :
    enough r ys = true ↔ ∃ l : List AnsCl, l.Nodup ∧ l ⊆ xs ∧ l.length = r := by
  obtain ⟨zs, h1, h2, h3, -⟩ := C50_answers_listed_once xs
  rw [h1] at h
  injection h with h
  subst h
  simp only [enough, List.length_map, decide_eq_true_iff]
  constructor
  · intro hr
    exact ⟨zs.take r, h2.sublist (List.take_sublist _ _), fun x hx => (h3 x).1 (List.mem_of_mem_take hx), by simp; omega⟩
  · rintro ⟨l, hl, hs, rfl⟩
    exact (List.Nodup.subperm hl (fun x hx => (h3 x).2 (hs hx))).length_le

/-- the answers of the examples: `$ans(a)`, `$ans(b)` and `$ans(a) | $ans(b)` -/
def exAns (a : String) : AnsCl := .fact (ap "$ans" [cn a])

example : registerAll [] ([exAns "a", exAns "b", exAns "a"].map some) = some ([exAns "a", exAns "b"].map some) := by decide

/-- Finding: after a proof without answer, or for one after an answer, the comparison reads a record at
NULL.  This happens when more than one answer is asked for. -/
theorem C50_second_proof_undefined (a : Answer) (all : List Answer) :
    register (a :: all) none = none ∧ register (none :: all) a = none := by
  refine ⟨?_, ?_⟩
  · cases a with
    | none => rfl
    | some a => cases a <;> rfl
  · cases a <;> rfl

/-- Finding: the literals are compared in order, so the same answer with its literals in another
order is counted as a second one. -/
theorem C50_order_counts_twice : ∃ a b : List Gkc.Lit, a.Perm b ∧
    registerAll [] [some (.rule a), some (.rule b)] = some [some (.rule a), some (.rule b)] :=
  ⟨[⟨false, ap "$ans" [cn "a"]⟩, ⟨false, ap "$ans" [cn "b"]⟩], [⟨false, ap "$ans" [cn "b"]⟩, ⟨false, ap "$ans" [cn "a"]⟩],
    List.Perm.swap _ _ _, by decide⟩

/-- Finding: the sign of answer literals is not looked at, so with the clause `-$ans(a)` of a user
the answer `-$ans(a)` is reported. -/
theorem C50_negative_answer : ∃ (input : List (List ALit)) (s : PState) (cl : List Gkc.Lit), Run exCfg ShortActive input s ∧
    cl ∈ s.answers ∧ ∀ l ∈ cl, l.neg = true := by
  have r0 : Run exCfg ShortActive [[⟨0, true, ap "$ans" [cn "a"]⟩]] _ := .start (by simp [ShortActive, PState.init])
  have r1 := Run.step r0 (.answer (cl := [⟨0, true, ap "$ans" [cn "a"]⟩]) (.passive (.head _)) (by simp [isAnswer, ALit.lit, ap]))
    (by simp [ShortActive, PState.init])
  exact ⟨_, _, _, r1, .head _, by simp [ALit.lit]⟩

/-! ### The vector of answers -/

theorem growLen_even {i m : Nat} : ∀ (k n : Nat), i - 2 * n ≤ k → Vec.growLen i (2 * n) = some m → ∃ j, m = 2 * j
  | k, n, hk, h => by
    rw [Vec.growLen] at h
    split at h
    · cases h
    · split at h
      · cases h
      · split at h
        · cases k with
          | zero => omega
          | succ k => exact growLen_even (i := i) k (2 * n) (by omega) (by rw [show 2 * n * 2 = 2 * (2 * n) by omega] at h; exact h)
        · injection h with h
          exact ⟨n, h.symm⟩

theorem cvecStore_even (junk : Nat → Int) {v v' : List Int} {n i : Nat} {e : Int} (hn : v[0]? = some ((2 * n : Nat) : Int))
    (hi : 2 ≤ i) (h : Vec.cvecStore junk v i e = some v') : ∃ n' : Nat, v'[0]? = some ((2 * n' : Nat) : Int) := by
  have set0 : ∀ {w w' : List Int} {j : Nat} {x : Int}, 1 ≤ j → Vec.wr w j x = some w' → w'[0]? = w[0]? := by
    intro w w' j x hj hw
    simp only [Vec.wr] at hw
    split at hw
    · injection hw with hw
      rw [← hw, List.getElem?_set_ne (by omega)]
    · cases hw
  have st : ∀ {w}, Vec.vecStore junk v i e = some w → ∃ n' : Nat, w[0]? = some ((2 * n' : Nat) : Int) := by
    intro w hw
    simp only [Vec.vecStore, Vec.rd, hn] at hw
    split at hw
    · exact ⟨n, by rw [set0 (by omega) hw, hn]⟩
    · simp only [Vec.vecRealloc, Vec.rd, hn] at hw
      rename_i hle
      rw [if_neg hle] at hw
      cases hg : Vec.growLen i (if ((2 * n : Nat) : Int) ≤ 0 then 2 else ((2 * n : Nat) : Int).toNat * 2) with
      | none => rw [hg] at hw; simp at hw
      | some m =>
        rw [hg] at hw
        have : ∃ j, m = 2 * j := by
          split at hg
          · exact growLen_even (i := i) i 1 (by omega) hg
          · refine growLen_even (i := i) i (2 * n) (by omega) ?_
            have e2 : ((2 * n : Nat) : Int).toNat * 2 = 2 * (2 * n) := by omega
            rw [e2] at hg
            exact hg
        obtain ⟨j, rfl⟩ := this
        cases hw1 : Vec.wr (v.take (2 * j + 1) ++ (List.range (2 * j + 1 - v.length)).map junk) 0 ((2 * j : Nat) : Int) with
        | none => simp only [hw1] at hw; simp at hw
        | some w1 =>
          simp only [hw1, Option.bind_some] at hw
          refine ⟨j, ?_⟩
          rw [set0 (by omega) hw]
          simp only [Vec.wr] at hw1
          split at hw1
          · rename_i hlt
            injection hw1 with hw1
            rw [← hw1, List.getElem?_set_self hlt]
          · cases hw1
  simp only [Vec.cvecStore] at h
  cases hs : Vec.vecStore junk v i e with
  | none => rw [hs] at h; simp at h
  | some w =>
    obtain ⟨n', hn'⟩ := st hs
    simp only [hs, Option.bind_some, Vec.rd] at h
    split at h
    · cases h
    · split at h
      · exact ⟨n', by rw [set0 (by omega) h, hn']⟩
      · injection h with h
        exact ⟨n', by rw [← h, hn']⟩

/-- the vector holds the pairs, its length is even, and there is place for the next word -/
structure ARep (v : List Int) (ps : List (Int × Int)) : Prop where
  rep : ∃ f, CRep v (2 + 2 * ps.length) f ∧
    ∀ (i : Nat) (p : Int × Int), ps[i]? = some p → f (2 + 2 * i) = some p.1 ∧ f (3 + 2 * i) = some p.2
  len : ∃ n : Nat, v[0]? = some ((2 * n : Nat) : Int) ∧ 2 + 2 * ps.length ≤ 2 * n

theorem storeAnswer_rep (junk : Nat → Int) {v : List Int} {ps : List (Int × Int)} (h : ARep v ps)
    (hs : 3 + 2 * ps.length ≤ maxPos) (p : Int × Int) :
    ∃ v', storeAnswer junk v p.1 p.2 = some v' ∧ ARep v' (ps ++ [p]) := by
  obtain ⟨f, hr, hf⟩ := h.rep
  obtain ⟨n, hn, hle⟩ := h.len
  obtain ⟨v1, e1, r1, -⟩ := cvecStore_spec junk hr (i := 2 + 2 * ps.length) (by omega) (by omega) p.1
  rw [if_pos (Nat.le_refl _)] at r1
  obtain ⟨n1, hn1⟩ := cvecStore_even junk hn (by omega) e1
  obtain ⟨v2, e2, r2, len, hl, hl2, -⟩ := cvecStore_spec junk r1 (i := 2 + 2 * ps.length + 1) (by omega) (by omega) p.2
  rw [if_pos (Nat.le_refl _)] at r2
  obtain ⟨n2, hn2⟩ := cvecStore_even junk hn1 (by omega) e2
  refine ⟨v2, ?_, ⟨vput (vput f (2 + 2 * ps.length) p.1) (2 + 2 * ps.length + 1) p.2, ?_, ?_⟩, n2, hn2, ?_⟩
  · simp only [storeAnswer, Vec.rd, hn, hr.next]
    rw [if_neg (by omega)]
    simp only [Int.toNat_natCast, e1, Option.bind_some, e2]
  · have : 2 + 2 * (ps ++ [p]).length = 2 + 2 * ps.length + 1 + 1 := by simp; omega
    rw [this]
    exact r2
  · intro i q hq
    simp only [vput]
    by_cases hi : i < ps.length
    · rw [List.getElem?_append_left hi] at hq
      obtain ⟨a, b⟩ := hf i q hq
      rw [if_neg (by omega), if_neg (by omega), if_neg (by omega), if_neg (by omega)]
      exact ⟨a, b⟩
    · have hi' : i = ps.length := by
        have := (List.getElem?_eq_some_iff.1 hq).1
        simp at this
        omega
      subst hi'
      simp at hq
      subst hq
      rw [if_neg (by omega), if_pos rfl, if_pos (by omega)]
      exact ⟨rfl, rfl⟩
  · rw [hn2] at hl
    injection hl with hl
    simp
    omega

/-- C50.  wr_register_answer gives its second store a pointer read before the first store, but the
first store never moves the vector: its length stays even, so only the second store of a pair can need
more space.  Every number of answers below 2^29 is stored, and each is read back. -/
theorem C50_answer_vector (junk : Nat → Int) (ps : List (Int × Int)) (h : 3 + 2 * ps.length ≤ maxPos) :
    ∃ v, storeAnswers junk (Vec.cvecNew junk 1000) ps = some v ∧ v[1]? = some ((2 + 2 * ps.length : Nat) : Int) ∧
      ∀ (i : Nat) (p : Int × Int), ps[i]? = some p → v[2 + 2 * i]? = some p.1 ∧ v[3 + 2 * i]? = some p.2 := by
  have gen : ∀ (ps qs : List (Int × Int)) (v : List Int), ARep v qs → 3 + 2 * (qs ++ ps).length ≤ maxPos →
      ∃ v', storeAnswers junk v ps = some v' ∧ ARep v' (qs ++ ps) := by
    intro ps
    induction ps with
    | nil => intro qs v hv _; exact ⟨v, rfl, by simpa using hv⟩
    | cons p ps ih =>
      intro qs v hv hs
      obtain ⟨v1, e1, h1⟩ := storeAnswer_rep junk hv (by simp at hs; omega) p
      obtain ⟨v2, e2, h2⟩ := ih (qs ++ [p]) v1 h1 (by simpa using hs)
      exact ⟨v2, by simp only [storeAnswers, e1, Option.bind_some]; exact e2, by simpa using h2⟩
  obtain ⟨v, e, hv⟩ := gen ps [] (Vec.cvecNew junk 1000)
    ⟨⟨_, cvecNew_rep junk 1000, by simp⟩, 500, by simp [Vec.cvecNew], by simp⟩ (by simpa using h)
  obtain ⟨f, hr, hf⟩ := hv.rep
  simp only [List.nil_append] at hr hf
  exact ⟨v, e, hr.next, fun i p hp => ⟨(hr.vals _ _ (hf i p hp).1).2, (hr.vals _ _ (hf i p hp).2).2⟩⟩

example : ∃ v, storeAnswers (fun _ => 7) (Vec.cvecNew (fun _ => 7) 1000) [(11, 12), (13, 14)] = some v ∧ v[4]? = some 13 := by
  obtain ⟨v, e, -, h⟩ := C50_answer_vector (fun _ => 7) [(11, 12), (13, 14)] (by simp [maxPos])
  exact ⟨v, e, (h 1 _ rfl).1⟩

/-- with an odd length the first store can move the vector and the second uses the old pointer -/
example : storeAnswers (fun _ => 0) (Vec.cvecNew (fun _ => 0) 3) [(11, 12), (13, 14)] = none := by decide +kernel

/-! ### Cases -/

/-- axioms `p(a)`, `all X: q(X) | -p(X)`, question `q(X)` -/
def askEntries : List Entry :=
  [.item ⟨false, .at (exP "p" "a")⟩, .item ⟨false, .all [uri "X"] (.or [.at (exP "q" "X"), .neg (.at (exP "p" "X"))])⟩,
   .ask [uri "X"] (.at (exP "q" "X"))]

/-- their clauses -/
def askFcs : List FCl :=
  [.lits [.at (exP "p" "a")], .lits [.neg (.at (.app (uri "p") [.nm ⟨14, "X1"⟩])), .at (.app (uri "q") [.nm ⟨14, "X1"⟩])],
   .lits [.at (.app (uri "$ans") [.nm ⟨14, "X1"⟩]), .neg (.at (.app (uri "q") [.nm ⟨14, "X1"⟩]))]]

/-- the clauses built -/
def askInput : List (List ALit) :=
  [[⟨0, false, ap "p" [cn "a"]⟩], [⟨0, true, ap "p" [.var 0]⟩, ⟨1, false, ap "q" [.var 0]⟩],
   [⟨0, false, ap "$ans" [.var 0]⟩, ⟨1, true, ap "q" [.var 0]⟩]]

/-- the roles -/
def askRole (k : Const) : SRole := if k = .sym "$ans" then .pred else exSRole k

theorem askFresh : Fresh 0 0 askRole := by
  intro s hs
  have h : Const.sym s ≠ .sym "$ans" := fun e => ans_old hs e.symm
  rw [askRole, if_neg h]
  exact exFresh s hs

theorem askAdm : ∀ e ∈ askEntries, Adm exVar askRole e.toItem.frm := by
  intro e h
  simp only [askEntries, List.mem_cons, List.not_mem_nil, or_false] at h
  have vX : isVar exVar (uri "X") = true := by decide
  have vp : isVar exVar (uri "p") = false := by decide
  have vq : isVar exVar (uri "q") = false := by decide
  have va : isVar exVar (uri "$ans") = false := by decide
  rcases h with rfl | rfl | rfl
  · refine ⟨.at _, fun n h => h.elim, fun n m hn hm _ _ e => ?_, fun t ht => ?_⟩
    · simp only [Entry.toItem, nameIn, freeIn, boundIn, exP, namesT, namesTL, List.mem_cons, List.not_mem_nil, or_false, List.append_nil] at hn hm
      rcases hn with rfl | rfl <;> rcases hm with rfl | rfl <;> simp_all [uri]
    · cases ht
      simp [exP, WtFA, WtFTL, WtFT, OkName, NoOp, symbolOf, askRole, exSRole, uri] at *
      simp [vp]
  · refine ⟨.all _ (.or (.at _) (.neg (.at _))), fun n h => ?_, fun n m hn hm _ _ e => ?_, fun t ht => ?_⟩
    · simp only [Entry.toItem, boundIn, boundInL, or_false, List.mem_singleton] at h
      subst h
      exact vX
    · simp only [Entry.toItem, nameIn, freeIn, freeInL, boundIn, boundInL, exP, namesT, namesTL, List.mem_cons, List.not_mem_nil, or_false, List.append_nil] at hn hm
      have h1 : n = uri "X" ∨ n = uri "p" ∨ n = uri "q" := by
        rcases hn with ⟨_, (h | h) | (h | h)⟩ | h <;> simp [h]
      have h2 : m = uri "X" ∨ m = uri "p" ∨ m = uri "q" := by
        rcases hm with ⟨_, (h | h) | (h | h)⟩ | h <;> simp [h]
      rcases h1 with rfl | rfl | rfl <;> rcases h2 with rfl | rfl | rfl <;> simp_all [uri]
    · rcases ht with ht | ht | ht
      · cases ht
        simp [exP, WtFA, WtFTL, WtFT, OkName, NoOp, symbolOf, askRole, exSRole, uri] at *
        simp [vq, vX]
      · cases ht
        simp [exP, WtFA, WtFTL, WtFT, OkName, NoOp, symbolOf, askRole, exSRole, uri] at *
        simp [vp, vX]
      · exact ht.elim
  · refine ⟨.all _ (.imp (.at _) (.at _)), fun n h => ?_, fun n m hn hm _ _ e => ?_, fun t ht => ?_⟩
    · simp only [Entry.toItem, boundIn, boundInL, or_false, List.mem_singleton] at h
      subst h
      exact vX
    · simp only [Entry.toItem, nameIn, freeIn, freeInL, boundIn, boundInL, exP, namesT, namesTL, List.map_cons, List.map_nil, List.mem_cons, List.not_mem_nil, or_false, List.append_nil] at hn hm
      have h1 : n = uri "X" ∨ n = uri "q" ∨ n = uri "$ans" := by
        rcases hn with ⟨_, (h | h) | (h | h)⟩ | h <;> simp [h]
      have h2 : m = uri "X" ∨ m = uri "q" ∨ m = uri "$ans" := by
        rcases hm with ⟨_, (h | h) | (h | h)⟩ | h <;> simp [h]
      rcases h1 with rfl | rfl | rfl <;> rcases h2 with rfl | rfl | rfl <;> simp_all [uri]
    · rcases ht with ht | ht | ht
      · cases ht
        simp [exP, WtFA, WtFTL, WtFT, OkName, NoOp, symbolOf, askRole, exSRole, uri] at *
        simp [vq, vX]
      · cases ht
        simp [exP, WtFA, WtFTL, WtFT, OkName, NoOp, symbolOf, askRole, exSRole, uri] at *
        simp [va, vX]
      · exact ht.elim

theorem askNoAns : ∀ e ∈ askEntries, NoAns e := by
  intro e h
  simp only [askEntries, List.mem_cons, List.not_mem_nil, or_false] at h
  rcases h with rfl | rfl | rfl <;> intro n hn <;>
    simp only [headIn, headInL, exP, headsA, headsT, headsTL, List.append_nil, List.mem_cons, List.not_mem_nil, or_false] at hn
  · subst hn; decide
  · rcases hn with rfl | rfl <;> decide
  · subst hn; decide

theorem askClausifies : Clausifies exVar true 9 0 0 (askEntries.map Entry.toItem) askFcs := by
  refine .one (cs := [.lits [.at (exP "p" "a")]]) (g := .at (exP "p" "a")) rfl (by simp [flat, flatOr]) ?_
  refine .one (cs := [.lits [.neg (.at (.app (uri "p") [.nm ⟨14, "X1"⟩])), .at (.app (uri "q") [.nm ⟨14, "X1"⟩])]])
    (g := .or [.neg (.at (.app (uri "p") [.nm ⟨14, "X1"⟩])), .at (.app (uri "q") [.nm ⟨14, "X1"⟩])])
    (by rfl) (by simp [flat, flatOr, truthOf]) ?_
  exact .one (cs := [.lits [.at (.app (uri "$ans") [.nm ⟨14, "X1"⟩]), .neg (.at (.app (uri "q") [.nm ⟨14, "X1"⟩]))]])
    (g := .or [.at (.app (uri "$ans") [.nm ⟨14, "X1"⟩]), .neg (.at (.app (uri "q") [.nm ⟨14, "X1"⟩]))])
    (by rfl) (by simp [flat, flatOr, truthOf]) .nil

/-- the question of the problem meets the hypotheses, and its clause has an answer literal -/
example : ∃ fc ∈ askFcs, ∃ ls, buildCl exVar fc = some ls ∧ (∃ l ∈ ls, ∃ as, l.atom = .app (.sym "$ans") as) ∧
    ∀ l ∈ ls, ∀ as, l.atom = .app (.sym "$ans") as → l.neg = false :=
  ⟨_, .tail _ (.tail _ (.head _)), _, by rfl, ⟨_, .head _, _, rfl⟩,
    C50_answer_literals_positive askAdm askNoAns askClausifies _ (.tail _ (.tail _ (.head _))) _ (by rfl)⟩

theorem askBuilt : ∀ cl ∈ askInput, ∃ fc ∈ askFcs, ∃ ls, buildCl exVar fc = some ls ∧ NewCl ls cl := by
  intro cl h
  simp only [askInput, List.mem_cons, List.not_mem_nil, or_false] at h
  rcases h with rfl | rfl | rfl
  · exact ⟨_, .head _, _, by rfl, by rfl, by simp [Sep]⟩
  · exact ⟨_, .tail _ (.head _), _, by rfl, by rfl, by simp [Sep]⟩
  · exact ⟨_, .tail _ (.tail _ (.head _)), _, by rfl, by rfl, by simp [Sep]⟩

/-- the loop finds the answer -/
theorem askRun : ∃ s, Run exCfg ShortActive askInput s ∧ [⟨false, ap "$ans" [cn "a"]⟩] ∈ s.answers := by
  have r0 : Run exCfg ShortActive askInput _ := .start (by simp [ShortActive, PState.init])
  have r1 := Run.step r0 (.pick (cl := [⟨0, false, ap "p" [cn "a"]⟩]) (by simp [PState.init, askInput]) (List.Perm.refl _)) (by simp [ShortActive, PState.init])
  have r2 := Run.step r1 (.activate (g := tagPos _) (a := tagPos _) (n := 9) (n' := 9) rfl rfl rfl (tagPos_new _) rfl (tagPos_new _))
    (by simp [ShortActive, PState.init, tagPos])
  have r3 := Run.step r2 (.pick (cl := [⟨0, true, ap "p" [.var 0]⟩, ⟨1, false, ap "q" [.var 0]⟩]) (by simp [PState.init, askInput]) (List.Perm.refl _))
    (by simp [ShortActive, PState.init, tagPos])
  have r4 := Run.step r3 (.activate (g := tagPos _) (a := tagPos _) (n := 9) (n' := 9) rfl rfl rfl (tagPos_new _) rfl (tagPos_new _))
    (by simp [ShortActive, PState.init, tagPos])
  have r5 := Run.step r4 (.derive (r' := [⟨false, ap "q" [cn "a"]⟩]) (.resolve (y := [⟨0, false, ap "p" [cn "a"]⟩]) (n := 9) (i := 0) (j := 0) rfl (.tail _ (.head _)) rfl)
    (cutsNone _) clean_empty tagPos_new (fwd := true) (strong := false) (sdup := false) (m := fun _ => 0) (n := 9) rfl (by simp)
    (.plain (tagPos_new _))) (by simp [ShortActive, PState.init, tagPos])
  have r6 := Run.step r5 (.pick (cl := [⟨0, false, ap "q" [cn "a"]⟩]) (.head _) (List.Perm.refl _)) (by simp [ShortActive, PState.init, tagPos])
  have r7 := Run.step r6 (.activate (g := tagPos _) (a := tagPos _) (n := 9) (n' := 9) rfl rfl rfl (tagPos_new _) rfl (tagPos_new _))
    (by simp [ShortActive, PState.init, tagPos])
  have r8 := Run.step r7 (.pick (cl := [⟨0, false, ap "$ans" [.var 0]⟩, ⟨1, true, ap "q" [.var 0]⟩]) (by simp [PState.init, askInput]) (List.Perm.refl _))
    (by simp [ShortActive, PState.init, tagPos])
  have r9 := Run.step r8 (.activate (g := tagPos _) (a := tagPos _) (n := 9) (n' := 9) rfl rfl rfl (tagPos_new _) rfl (tagPos_new _))
    (by simp [ShortActive, PState.init, tagPos])
  have r10 := Run.step r9 (.derive (r' := [⟨false, ap "$ans" [cn "a"]⟩]) (.resolve (y := [⟨0, false, ap "q" [cn "a"]⟩]) (n := 9) (i := 1) (j := 0) rfl (.tail _ (.head _)) rfl)
    (cutsNone _) clean_empty tagPos_new (fwd := true) (strong := false) (sdup := false) (m := fun _ => 0) (n := 9) rfl (by simp)
    (.plain (tagPos_new _))) (by simp [ShortActive, PState.init, tagPos])
  have r11 := Run.step r10 (.answer (cl := [⟨0, false, ap "$ans" [cn "a"]⟩]) (.passive (.head _)) (by simp [isAnswer, ALit.lit, ap]))
    (by simp [ShortActive, PState.init, tagPos])
  exact ⟨_, r11, .head _⟩

/-- the problem meets the hypotheses, and so the answer is one: `q(a)` is a consequence -/
example (M : FO) (he : ∀ a b, M.pr (.sym "=") [a, b] ↔ a = b) (h1 : M.pr (.sym "$true") []) (h0 : ¬ M.pr (.sym "$false") [])
    (d0 d1 : M.D) (hd : d0 ≠ d1) (hax : ∀ f, Entry.item ⟨false, f⟩ ∈ askEntries → Sat exVar M.str f) :
    M.pr (.sym "q") [M.cst (.sym "a")] := by
  obtain ⟨s, r, hs⟩ := askRun
  rcases C50_answers_are_answers_partial askRole askFresh (by simp [askRole, exSRole]) (by simp [askRole, exSRole])
    (fun k hk => by cases k <;> simp_all [isNumber, askRole, exSRole]) askAdm askNoAns askClausifies _ _ _ askInput askBuilt
    s r _ hs M he h1 h0 d0 d1 hd hax with ⟨e, hm, q, hg, -⟩ | ⟨S, x, k⟩
  · simp only [askEntries, List.mem_cons, List.not_mem_nil, or_false] at hm
    rcases hm with rfl | rfl | rfl <;> rcases hg with hg | hg <;> simp at hg
  · obtain ⟨ts, ht, fv, q, hm, τ, hτ, hv, h⟩ := k (fun _ => d0)
    simp only [ap, List.mem_singleton, Lit.mk.injEq, Term.app.injEq, true_and] at ht
    subst ht
    simp only [askEntries, List.mem_cons, List.not_mem_nil, or_false, reduceCtorEq, false_or, Entry.ask.injEq] at hm
    obtain ⟨rfl, rfl⟩ := hm
    have ha := (x (.sym "a") (by
      intro s hs e
      have f := askFresh s hs
      rw [← e] at f
      simp [askRole, exSRole] at f)).1 (by simp [askRole, exSRole])
    simp only [Str.vals, Str.fo, cn, FO.evalL, FO.eval, List.map_cons, List.map_nil, List.cons.injEq, and_true] at hv
    simp only [FInt.holds, exP, FInt.atom, FInt.evL, FInt.ev, hv, ha] at h
    exact h

end Gkc.Props
