import Verif.ParaLemmas
import Verif.Props.Unify
import Verif.Props.Build
/- Property theorems C13-C16: soundness of the inferences. -/
namespace Gkc.Props
open Gkc Term

/-- A stored clause: ordinary variables (numbers below 4000); equal addresses mean the same
atom. -/
structure Stored (cl : List ALit) : Prop where
  vars : ∀ l ∈ cl, ∀ w ∈ vars l.atom, w < 4000
  addr : ∀ l ∈ cl, ∀ k ∈ cl, l.addr = k.addr → l.atom = k.atom

/-- No atom occurs with both signs.  The main loop drops clauses for which this fails
(C16_tautology_check). -/
def NoBothSigns (cl : List ALit) : Prop := ∀ l ∈ cl, ∀ k ∈ cl, l.atom = k.atom → l.neg = k.neg

/-- the clause as a plain list of literals -/
def plain (cl : List ALit) : List Lit := cl.map (fun l => ⟨l.neg, l.atom⟩)

/-- No address is used with both signs. -/
def OneSign (cl : List ALit) : Prop := ∀ l ∈ cl, ∀ k ∈ cl, l.addr = k.addr → l.neg = k.neg

theorem NoBothSigns.one {cl : List ALit} (hn : NoBothSigns cl) (h : Stored cl) : OneSign cl :=
  fun l hl k hk e => hn l hl k hk (h.addr l hl k hk e)

theorem Stored.wf {cl : List ALit} (h : Stored cl) (hn : OneSign cl) : WfCl cl := by
  refine ⟨h.vars, ?_⟩
  intro l hl k hk e
  have h1 := h.addr l hl k hk e
  have h2 := hn l hl k hk e
  simp only [ALit.lit, h1, h2]

/-! ## C13 -/

/-- C13: a resolvent is true wherever the two clauses are.  `ev` may evaluate terms as long as
evaluation is right in the interpretation. -/
theorem C13_resolution_sound (I : Interp) (ev : Term → Option Term) (hev : EvSound I ev) (hc : TruthOk I)
    (n : Nat) (xcl ycl : List ALit) (i j : Nat) (r : List Lit)
    (hx : Stored xcl) (hy : Stored ycl) (hnx : OneSign xcl) (hny : OneSign ycl)
    (h : resolveInf ev n xcl i ycl j = .ok r)
    (tx : ClTrue I (plain xcl)) (ty : ClTrue I (plain ycl)) : ClTrue I r := by
  simp only [resolveInf] at h
  split at h
  · rename_i x y ex ey
    have mx := List.mem_of_getElem? ex
    have my := List.mem_of_getElem? ey
    split at h
    · cases h
    · rename_i hs
      split at h
      · cases h
      · cases h
      · rename_i st eu
        obtain ⟨θ, hd, hu, _⟩ := unify_den eu (hx.vars x mx) (hy.vars y my)
        cases hr : resolveLits ev 3 n st xcl x.addr ycl y.addr with
        | ok rs s =>
          rw [hr] at h
          simp only [Asm.inf, Inf.ok.injEq] at h
          subst h
          have hC := resolveLits_spec hd mx my hx.vars hy.vars hr
          intro ρ
          obtain ⟨ρ', hρ⟩ := hC.point hev hc ρ
          rw [hρ]
          apply Classical.byContradiction
          intro hf
          rw [List.map_append] at hf
          have fx := cut_true (hx.wf hnx) mx tx (θ := θ) (ρ := ρ')
            (fun ⟨l, hl, h⟩ => hf ⟨l, List.mem_append_left _ hl, h⟩)
          have fy := cut_true (hy.wf hny) my ty (θ := θ) (ρ := ρ')
            (fun ⟨l, hl, h⟩ => hf ⟨l, List.mem_append_right _ hl, h⟩)
          simp only [Lit.tr, Lit.subst, ALit.lit, hu] at fx fy
          have hs' : x.neg ≠ y.neg := by simpa using hs
          cases hxn : x.neg <;> cases hyn : y.neg <;> simp_all
        | fuel => rw [hr] at h; cases h
        | illegal => rw [hr] at h; cases h
        | taut => rw [hr] at h; cases h
  · cases h

/-- `r` is the clause `rest` up to a one-to-one renaming, each literal once, without literals
that are false because of a truth constant -/
def ClauseOf (rest r : List Lit) : Prop :=
  ∃ ren : Nat → Nat, (∀ v ∈ clVars rest, ∀ w ∈ clVars rest, ren v = ren w → v = w) ∧
    (∀ l ∈ r, l ∈ rest.map (Lit.subst (fun v => .var (ren v)))) ∧
    (∀ l ∈ rest.map (Lit.subst (fun v => .var (ren v))), l ∈ r ∨ FalseLit l) ∧
    (r.map Lit.atom).Nodup ∧ ∀ l ∈ r, l.atom ≠ .const aTrue ∧ l.atom ≠ .const aFalse

/-- literals not using the address of `x` -/
def without (cl : List ALit) (x : ALit) : List Lit := plain (cl.filter (fun l => decide (l.addr ≠ x.addr)))

theorem without_eq (cl : List ALit) (x : ALit) : without cl x = others x.addr cl := by
  simp only [without, plain, others]
  have e1 : (fun l : ALit => decide (l.addr ≠ x.addr)) = (fun l => l.addr != x.addr) := by
    funext l
    by_cases hh : l.addr = x.addr <;> simp [hh]
  rw [e1]; rfl

theorem clauseOf_of_collected {bank : Nat} {Ls r : List Lit} (h : Collected some bank Ls r) : ClauseOf Ls r := by
  obtain ⟨names, Ns, hnd, _, hB, hM⟩ := h.shape
  have hN : Ns = Ls.map (Lit.subst (fun v => .var (bank * 1000 + names.idxOf v))) := by
    clear hM h
    induction hB with
    | nil => rfl
    | cons h _ ih =>
      rw [norm_some] at h
      simp only [Option.some.injEq] at h
      rename_i l l' ls ls' _
      simp only [List.map_cons, List.cons.injEq]
      refine ⟨?_, ih⟩
      obtain ⟨h1, h2, _⟩ := h
      cases l'
      simp only at h1 h2
      rw [h1, ← h2]; rfl
  refine ⟨fun v => bank * 1000 + names.idxOf v, ?_, ?_, ?_, hM.nodup (by simp), ?_⟩
  · intro v hv w hw e
    obtain ⟨l, hl, hv⟩ := clVars_mem.1 hv
    obtain ⟨k, hk, hw⟩ := clVars_mem.1 hw
    have hv1 := hB.vars l hl v hv
    have hw1 := hB.vars k hk w hw
    have e' : names.idxOf v = names.idxOf w := by simpa using e
    have a1 : names[names.idxOf v]'(List.idxOf_lt_length_iff.2 hv1) = v := List.getElem_idxOf _
    have a2 : names[names.idxOf w]'(List.idxOf_lt_length_iff.2 hw1) = w := List.getElem_idxOf _
    rw [← a1, ← a2]; congr 1
  · intro l hl
    rcases hM.only l hl with h | h
    · cases h
    · rw [← hN]; exact h
  · intro l hl
    rw [← hN] at hl
    exact hM.all l hl
  · intro l hl
    rcases hM.notruth l hl with h | h
    · cases h
    · exact h

/-- what a successful or abandoned resolution step did -/
theorem resolveInf_cases {ev : Term → Option Term} {n : Nat} {xcl ycl : List ALit} {i j : Nat}
    (hx : Stored xcl) (hy : Stored ycl) {o : Inf} (ho : resolveInf ev n xcl i ycl j = o) (hne : o ≠ .none) (hf : o ≠ .fuel) :
    ∃ x y θ st, xcl[i]? = some x ∧ ycl[j]? = some y ∧ x.neg ≠ y.neg ∧ Mgu θ x.atom y.atom ∧ Den st.b θ ∧
      (resolveLits ev 3 n st xcl x.addr ycl y.addr).inf = o := by
  simp only [resolveInf] at ho
  split at ho
  · rename_i x y ex ey
    have mx := List.mem_of_getElem? ex
    have my := List.mem_of_getElem? ey
    split at ho
    · exact absurd ho.symm hne
    · rename_i hs
      split at ho
      · exact absurd ho.symm hf
      · exact absurd ho.symm hne
      · rename_i st eu
        obtain ⟨θ, hd, hu, hm⟩ := unify_den eu (hx.vars x mx) (hy.vars y my)
        exact ⟨x, y, θ, st, ex, ey, by simpa using hs, ⟨hu, fun τ hτ => ⟨τ, hm τ hτ⟩⟩, hd, ho⟩
  · exact absurd ho.symm hne

theorem Asm.inf_ok {a : Asm} {r} (h : a.inf = .ok r) : ∃ s, a = .ok r s := by
  cases a <;> simp [Asm.inf] at h
  exact ⟨_, by rw [h]⟩
theorem Asm.inf_taut {a : Asm} (h : a.inf = .dropped true) : a = .taut := by
  cases a <;> simp [Asm.inf] at h; rfl
theorem Asm.inf_illegal {a : Asm} (h : a.inf = .dropped false) : a = .illegal := by
  cases a <;> simp [Asm.inf] at h; rfl

/-- C13, exact form (no evaluation): the resolvent consists of the remaining literals of both
clauses under a most general unifier of the two chosen atoms, renamed one-to-one, each literal
once. -/
theorem C13_resolvent_exact (n : Nat) (xcl ycl : List ALit) (i j : Nat) (r : List Lit)
    (hx : Stored xcl) (hy : Stored ycl) (h : resolveInf some n xcl i ycl j = .ok r) :
    ∃ x y θ, xcl[i]? = some x ∧ ycl[j]? = some y ∧ x.neg ≠ y.neg ∧ Mgu θ x.atom y.atom ∧
      ClauseOf ((without xcl x ++ without ycl y).map (Lit.subst θ)) r := by
  obtain ⟨x, y, θ, st, ex, ey, hs, hm, hd, ho⟩ := resolveInf_cases hx hy h (fun h => nomatch h) (fun h => nomatch h)
  obtain ⟨s, hr⟩ := Asm.inf_ok ho
  refine ⟨x, y, θ, ex, ey, hs, hm, ?_⟩
  rw [without_eq, without_eq]
  exact clauseOf_of_collected (resolveLits_spec hd (List.mem_of_getElem? ex) (List.mem_of_getElem? ey) hx.vars hy.vars hr)

/-- example: `p(?1000) | q(?1000)` with `-p(f(?2000))` -/
example : resolveInf some 20 [⟨10, false, ap "p" [.var 1000]⟩, ⟨11, false, ap "q" [.var 1000]⟩] 0
    [⟨20, true, ap "p" [ap "f" [.var 2000]]⟩] 0 = .ok [⟨false, ap "q" [ap "f" [.var 3000]]⟩] := rfl

/-- the example clauses meet the hypotheses -/
example : Stored [⟨10, false, ap "p" [.var 1000]⟩, ⟨11, false, ap "q" [.var 1000]⟩] ∧
    OneSign [⟨10, false, ap "p" [.var 1000]⟩, ⟨11, false, ap "q" [.var 1000]⟩] := by
  refine ⟨⟨?_, ?_⟩, ?_⟩
  · simp [ap]
  · simp
  · simp [OneSign]

/-- an interpretation for counterexamples: constants are kept apart, `p`, `q`, `r` are as given -/
def propInterp (tr : Const → Prop) : Interp where
  D := Const
  cst c := c
  fn f _ := f
  tr := tr

/-- Finding: without `OneSign` resolution is unsound: cutting an atom that the clause
contains with both signs under one address drops both literals (Reasoner/derive.c:1210).  From
`p | -p` and `-p` (atoms that are constants, so both literals have the same word) the prover
would derive the empty clause. -/
theorem C13_shared_atom_unsound : ∃ (xcl ycl : List ALit) (I : Interp), Stored xcl ∧ Stored ycl ∧
    TruthOk I ∧ resolveInf some 20 xcl 0 ycl 0 = .ok [] ∧ ClTrue I (plain xcl) ∧ ClTrue I (plain ycl) := by
  refine ⟨[⟨1, false, cn "p"⟩, ⟨1, true, cn "p"⟩], [⟨1, true, cn "p"⟩], propInterp (fun c => c = aTrue), ⟨?_, ?_⟩, ⟨?_, ?_⟩, ⟨rfl, ?_⟩, rfl, ?_, ?_⟩
  · simp [cn]
  · simp
  · simp [cn]
  · simp
  · simp [propInterp, aTrue, aFalse]
  · intro ρ; exact ⟨_, .tail _ (.head _), by simp [Lit.tr, cn, eval, propInterp, aTrue]⟩
  · intro ρ; exact ⟨_, .head _, by simp [Lit.tr, cn, eval, propInterp, aTrue]⟩

/-! ## C14 -/

/-- C14: a factor is true wherever the clause is. -/
theorem C14_factoring_sound (I : Interp) (ev : Term → Option Term) (hev : EvSound I ev) (hc : TruthOk I)
    (n : Nat) (xcl : List ALit) (i j : Nat) (r : List Lit) (hx : Stored xcl) (hnx : OneSign xcl)
    (h : factorInf ev n xcl i j = .ok r) (hij : ∀ x y, xcl[i]? = some x → xcl[j]? = some y → x.addr ≠ y.addr)
    (tx : ClTrue I (plain xcl)) : ClTrue I r := by
  simp only [factorInf] at h
  split at h
  · split at h
    · rename_i x y ex ey
      have mx := List.mem_of_getElem? ex
      have my := List.mem_of_getElem? ey
      split at h
      · cases h
      · rename_i hs
        split at h
        · split at h
          · cases h
          · cases h
          · rename_i st eu
            obtain ⟨θ, hd, hu, _⟩ := unify_den eu (hx.vars x mx) (hx.vars y my)
            cases hr : factorLits ev 3 n st xcl x.addr with
            | ok rs s =>
              rw [hr] at h
              simp only [Asm.inf, Inf.ok.injEq] at h
              subst h
              have hC := factorLits_spec hd mx hx.vars hr
              intro ρ
              obtain ⟨ρ', hρ⟩ := hC.point hev hc ρ
              rw [hρ]
              apply Classical.byContradiction
              intro hf
              have fx := cut_true (hx.wf hnx) mx tx (θ := θ) (ρ := ρ') hf
              apply hf
              refine ⟨y.lit.subst θ, List.mem_map_of_mem (List.mem_map_of_mem ?_), ?_⟩
              · simp [my, Ne.symm (hij x y ex ey)]
              · have hs' : x.neg = y.neg := by simpa using hs
                simp only [Lit.tr, Lit.subst, ALit.lit, hu, hs'] at fx ⊢
                exact fx
            | fuel => rw [hr] at h; cases h
            | illegal => rw [hr] at h; cases h
            | taut => rw [hr] at h; cases h
        · cases h
    · cases h
  · cases h

/-- equality atoms of the clause have two arguments -/
def EqBinary (cl : List ALit) : Prop := ∀ l ∈ cl, ∀ as, l.atom = .app (.sym "=") as → as.length = 2

/-- C14: removing a negative equality whose sides unify is sound when equality is identity. -/
theorem C14_equality_reflexivity_sound (I : Interp) (hI : EqInterp I) (ev : Term → Option Term)
    (hev : EvSound I ev) (hc : TruthOk I) (n : Nat) (xcl : List ALit) (i : Nat) (r : List Lit)
    (hx : Stored xcl) (hnx : OneSign xcl) (hb : EqBinary xcl)
    (h : eqReflInf ev n xcl i = .ok r) (tx : ClTrue I (plain xcl)) : ClTrue I r := by
  simp only [eqReflInf] at h
  split at h
  · rename_i x ex
    have mx := List.mem_of_getElem? ex
    split at h
    · cases h
    · rename_i hn
      split at h
      · cases h
      · rename_i a b ea
        obtain ⟨rest, hat⟩ := eqArgs_some ea
        have hlen := hb x mx _ hat
        have hrest : rest = [] := by
          simp only [List.length_cons] at hlen
          exact List.eq_nil_of_length_eq_zero (by omega)
        subst hrest
        split at h
        · cases h
        · cases h
        · rename_i st eu
          have hv := hx.vars x mx
          rw [hat] at hv
          obtain ⟨θ, hd, hu, _⟩ := unify_den eu (fun w h => hv w (by simp [h])) (fun w h => hv w (by simp [h]))
          cases hr : factorLits ev 3 n st xcl x.addr with
          | ok rs s =>
            rw [hr] at h
            simp only [Asm.inf, Inf.ok.injEq] at h
            subst h
            have hC := factorLits_spec hd mx hx.vars hr
            intro ρ
            obtain ⟨ρ', hρ⟩ := hC.point hev hc ρ
            rw [hρ]
            apply Classical.byContradiction
            intro hf
            have fx := cut_true (hx.wf hnx) mx tx (θ := θ) (ρ := ρ') hf
            have hn' : x.neg = true := by simpa using hn
            simp only [Lit.tr, Lit.subst, ALit.lit, hat, hn', if_true] at fx
            apply fx
            rw [subst_app]
            simp only [List.map_cons, List.map_nil, eval, evalL]
            rw [hu]
            obtain ⟨E, π, hI, _⟩ := hI
            exact (hI _ _).2 rfl
          | fuel => rw [hr] at h; cases h
          | illegal => rw [hr] at h; cases h
          | taut => rw [hr] at h; cases h
  · cases h

/-- example: factoring `p(?1000) | p(f(?1001)) | q(?1000)` -/
example : factorInf some 20 [⟨10, false, ap "p" [.var 1000]⟩, ⟨11, false, ap "p" [ap "f" [.var 1001]]⟩,
      ⟨12, true, ap "q" [.var 1000]⟩] 0 1 =
    .ok [⟨false, ap "p" [ap "f" [.var 3000]]⟩, ⟨true, ap "q" [ap "f" [.var 3000]]⟩] := rfl

/-- example: `-(?1000 = f(?1001)) | p(?1000)` -/
example : eqReflInf some 20 [⟨10, true, ap "=" [.var 1000, ap "f" [.var 1001]]⟩, ⟨11, false, ap "p" [.var 1000]⟩] 0 =
    .ok [⟨false, ap "p" [ap "f" [.var 3000]]⟩] := rfl

/-! ## C15 -/

/-- the literals of the target clause with the subterm at one place of literal `j` replaced -/
def replaced (cl : List ALit) (j : Nat) (neg : Bool) (C : Ctx) (t : Term) : List Lit :=
  plain (cl.take j) ++ ⟨neg, C.fill t⟩ :: plain (cl.drop (j + 1))

theorem para_core {I : Interp} (hI : EqInterp I) {ev : Term → Option Term} (hev : EvSound I ev) (hc : TruthOk I)
    {xcl ycl : List ALit} {x y : ALit} (hx : Stored xcl) (hnx : OneSign xcl) (mx : x ∈ xcl)
    (hxn : x.neg = false) {a b : Term} (hat : x.atom = .app (.sym "=") [a, b])
    {j : Nat} (hy : ycl[j]? = some y) {C : Ctx} {u l t : Term} (hC : y.atom = C.fill u) (hne : C ≠ .hole)
    (hlt : (l = a ∧ t = b) ∨ (l = b ∧ t = a)) {θ : Nat → Term} (hu : subst θ l = subst θ u) {rs : List Lit}
    (hcol : Collected ev 3 ((others x.addr xcl ++ setAtom ycl j y.neg (C.fill t)).map (Lit.subst θ)) rs)
    (tx : ClTrue I (plain xcl)) (ty : ClTrue I (plain ycl)) : ClTrue I rs := by
  intro ρ
  obtain ⟨ρ', hρ⟩ := hcol.point hev hc ρ
  rw [hρ]
  apply Classical.byContradiction
  intro hf
  rw [List.map_append] at hf
  have fx := cut_true (hx.wf hnx) mx tx (θ := θ) (ρ := ρ')
    (fun ⟨l, hl, h⟩ => hf ⟨l, List.mem_append_left _ hl, h⟩)
  simp only [Lit.tr, Lit.subst, ALit.lit, hat, hxn, Bool.false_eq_true, if_false, subst_app, List.map_cons,
    List.map_nil, eval, evalL] at fx
  obtain ⟨E, π, hI, hf'⟩ := hI
  rw [hI] at fx
  have heq : π (eval I ρ' (subst θ u)) = π (eval I ρ' (subst θ t)) := by
    rw [← hu]
    rcases hlt with ⟨rfl, rfl⟩ | ⟨rfl, rfl⟩
    · exact fx
    · exact fx.symm
  rw [eval_subst, eval_subst] at heq
  have hfill := (fill_eval_pi hf' heq C).2 hne
  obtain ⟨k, hk, htr⟩ := (ty.subst θ) ρ'
  obtain ⟨k1, hk1, rfl⟩ := List.mem_map.1 hk
  obtain ⟨k2, hk2, rfl⟩ := List.mem_map.1 hk1
  apply hf
  obtain ⟨m, hm⟩ := List.mem_iff_getElem?.1 hk2
  have hjl : j < ycl.length := (List.getElem?_eq_some_iff.1 hy).1
  by_cases hmj : m = j
  · subst hmj
    rw [hy] at hm
    simp only [Option.some.injEq] at hm
    subst hm
    refine ⟨(⟨y.neg, C.fill t⟩ : Lit).subst θ, List.mem_append_right _ (List.mem_map_of_mem (by simp [setAtom])), ?_⟩
    simp only [Lit.tr, Lit.subst, hC, eval_subst] at htr ⊢
    rw [← hfill]; exact htr
  · refine ⟨Lit.subst θ ⟨k2.neg, k2.atom⟩, List.mem_append_right _ (List.mem_map_of_mem ?_), htr⟩
    simp only [setAtom, List.mem_append, List.mem_cons]
    by_cases hlt : m < j
    · left
      refine List.mem_map.2 ⟨k2, ?_, rfl⟩
      exact List.mem_of_getElem? (i := m) (by rw [List.getElem?_take]; simp [hlt, hm])
    · right; right
      refine List.mem_map.2 ⟨k2, ?_, rfl⟩
      refine List.mem_of_getElem? (i := m - (j + 1)) ?_
      rw [List.getElem?_drop]
      have : j + 1 + (m - (j + 1)) = m := by omega
      rw [this]; exact hm

/-- C15: paramodulating from an equation of the given clause is sound when equality is
identity. -/
theorem C15_para_from_sound (I : Interp) (hI : EqInterp I) (ev : Term → Option Term) (hev : EvSound I ev)
    (hc : TruthOk I) (n : Nat) (xcl ycl : List ALit) (i : Nat) (left : Bool) (j k : Nat) (r : List Lit)
    (hx : Stored xcl) (hy : Stored ycl) (hnx : OneSign xcl) (hb : EqBinary xcl)
    (h : paraFromInf ev n xcl i left ycl j k = .ok r)
    (tx : ClTrue I (plain xcl)) (ty : ClTrue I (plain ycl)) : ClTrue I r := by
  simp only [paraFromInf] at h
  split at h
  · rename_i x y ex ey
    have mx := List.mem_of_getElem? ex
    have my := List.mem_of_getElem? ey
    split at h
    · cases h
    · rename_i hn
      split at h
      · rename_i a b yt pos ea et
        obtain ⟨rest, hat⟩ := eqArgs_some ea
        have hlen := hb x mx _ hat
        have hrest : rest = [] := by
          simp only [List.length_cons] at hlen
          exact List.eq_nil_of_length_eq_zero (by omega)
        subst hrest
        obtain ⟨hj, _, hp, C, hC, rfl, hch⟩ := paraTargets_pos et
        split at h
        · cases h
        · cases h
        · rename_i st eu
          have hv := hx.vars x mx
          rw [hat] at hv
          have hva : ∀ w ∈ vars a, w < 4000 := fun w h => hv w (by simp [h])
          have hvb : ∀ w ∈ vars b, w < 4000 := fun w h => hv w (by simp [h])
          have hvy : ∀ w ∈ vars yt, w < 4000 := fun w h => hy.vars y my w (by rw [hC]; exact vars_fill h)
          have hlt : ((if left then a else b) = a ∧ (if left then b else a) = b) ∨
              ((if left then a else b) = b ∧ (if left then b else a) = a) := by cases left <;> simp
          obtain ⟨θ, hd, hu, _⟩ := unify_den eu (by cases left <;> assumption) hvy
          cases hr : paraLits ev 3 n st xcl x.addr ycl (encPath j C.posOf) (if left then b else a) with
          | ok rs s =>
            rw [hr] at h
            simp only [Asm.inf, Inf.ok.injEq] at h
            subst h
            have hcol := paraLits_spec hd mx hx.vars hy.vars hj ey hC hp (by cases left <;> assumption) hr
            exact para_core hI hev hc hx hnx mx (by simpa using hn) hat ey hC hch hlt hu hcol tx ty
          | fuel => rw [hr] at h; cases h
          | illegal => rw [hr] at h; cases h
          | taut => rw [hr] at h; cases h
      · cases h
  · cases h

/-- what a successful paramodulation step from the given clause did -/
theorem paraFrom_cases {ev : Term → Option Term} {n : Nat} {xcl ycl : List ALit} {i : Nat} {left : Bool} {j k : Nat}
    (hx : Stored xcl) (hy : Stored ycl) {o : Inf} (ho : paraFromInf ev n xcl i left ycl j k = o)
    (hne : o ≠ .none) (hf : o ≠ .fuel) :
    ∃ x y a b rest, ∃ C : Ctx, ∃ u θ st, xcl[i]? = some x ∧ ycl[j]? = some y ∧ x.neg = false ∧
      x.atom = .app (.sym "=") (a :: b :: rest) ∧ y.atom = C.fill u ∧ C ≠ .hole ∧ NonVar u ∧ j ≤ 255 ∧ C.posOf ≤ 60000 ∧
      (paraTargets j y.atom)[k]? = some (u, C.posOf) ∧
      Mgu θ (if left then a else b) u ∧ Den st.b θ ∧
      (paraLits ev 3 n st xcl x.addr ycl (encPath j C.posOf) (if left then b else a)).inf = o := by
  simp only [paraFromInf] at ho
  split at ho
  · rename_i x y ex ey
    have mx := List.mem_of_getElem? ex
    have my := List.mem_of_getElem? ey
    split at ho
    · exact absurd ho.symm hne
    · rename_i hn
      split at ho
      · rename_i a b yt pos ea et
        obtain ⟨rest, hat⟩ := eqArgs_some ea
        obtain ⟨hj, hnv, hp, C, hC, rfl, hch⟩ := paraTargets_pos et
        split at ho
        · exact absurd ho.symm hf
        · exact absurd ho.symm hne
        · rename_i st eu
          have hv := hx.vars x mx
          rw [hat] at hv
          have hva : ∀ w ∈ vars a, w < 4000 := fun w h => hv w (by simp [h])
          have hvb : ∀ w ∈ vars b, w < 4000 := fun w h => hv w (by simp [h])
          have hvy : ∀ w ∈ vars yt, w < 4000 := fun w h => hy.vars y my w (by rw [hC]; exact vars_fill h)
          obtain ⟨θ, hd, hu, hm⟩ := unify_den eu (by cases left <;> assumption) hvy
          exact ⟨x, y, a, b, rest, C, yt, θ, st, ex, ey, by simpa using hn, hat, hC, hch, hnv, hj, hp, et,
            ⟨hu, fun τ hτ => ⟨τ, hm τ hτ⟩⟩, hd, ho⟩
      · exact absurd ho.symm hne
  · exact absurd ho.symm hne

/-- C15, exact form (no evaluation): the result consists of the side literals of the equation
clause and of the target clause with exactly the chosen occurrence replaced, under a most
general unifier of the equation side and that occurrence. -/
theorem C15_replaces_one_position (n : Nat) (xcl ycl : List ALit) (i : Nat) (left : Bool) (j k : Nat) (r : List Lit)
    (hx : Stored xcl) (hy : Stored ycl) (h : paraFromInf some n xcl i left ycl j k = .ok r) :
    ∃ x y a b rest, ∃ C : Ctx, ∃ u θ, xcl[i]? = some x ∧ ycl[j]? = some y ∧ x.neg = false ∧
      x.atom = .app (.sym "=") (a :: b :: rest) ∧ y.atom = Ctx.fill C u ∧ C ≠ .hole ∧
      (∀ v, u ≠ .var v) ∧ (paraTargets j y.atom)[k]? = some (u, C.posOf) ∧
      Mgu θ (if left then a else b) u ∧
      ClauseOf ((without xcl x ++ replaced ycl j y.neg C (if left then b else a)).map (Lit.subst θ)) r := by
  obtain ⟨x, y, a, b, rest, C, u, θ, st, ex, ey, hn, hat, hC, hch, hnv, hj, hp, et, hm, hd, ho⟩ :=
    paraFrom_cases hx hy h (fun h => nomatch h) (fun h => nomatch h)
  obtain ⟨s, hr⟩ := Asm.inf_ok ho
  refine ⟨x, y, a, b, rest, C, u, θ, ex, ey, hn, hat, hC, hch, ?_, et, hm, ?_⟩
  · rintro v rfl; exact hnv
  · rw [without_eq]
    have mx := List.mem_of_getElem? ex
    have hv := hx.vars x mx
    rw [hat] at hv
    have hva : ∀ w ∈ vars a, w < 4000 := fun w h => hv w (by simp [h])
    have hvb : ∀ w ∈ vars b, w < 4000 := fun w h => hv w (by simp [h])
    exact clauseOf_of_collected (paraLits_spec hd mx hx.vars hy.vars hj ey hC hp (by cases left <;> assumption) hr)

/-- C15: every occurrence of a subterm that is not a variable, other than the atom itself, is
offered for paramodulation if its number is at most 60000, and different occurrences have
different numbers. -/
theorem C15_every_position_offered (j : Nat) (hj : j ≤ 255) (C : Ctx) (hC : C ≠ .hole) (u : Term)
    (hu : ∀ v, u ≠ .var v) (hp : C.posOf ≤ 60000) : (u, C.posOf) ∈ paraTargets j (C.fill u) := by
  have hnv : NonVar u := by
    cases u with
    | var v => exact absurd rfl (hu v)
    | const c => trivial
    | app f as => trivial
  have := paraSubs_complete u hnv C 0 0 (by omega)
  simp only [paraTargets, show ¬ j > 255 by omega, if_false]
  simpa using this (by intro _; exact hC)

theorem C15_positions_distinct (C E : Ctx) (u w : Term) (h : C.fill u = E.fill w) (hp : C.posOf = E.posOf) :
    C = E ∧ u = w := posOf_inj h hp

/-- C15: paramodulating into the given clause is sound if the equation is among the first 256
literals. -/
theorem C15_para_into_sound_partial (I : Interp) (hI : EqInterp I) (ev : Term → Option Term) (hev : EvSound I ev)
    (hc : TruthOk I) (n : Nat) (xcl ycl : List ALit) (i : Nat) (hi : i ≤ 255) (left : Bool) (j k : Nat) (r : List Lit)
    (hx : Stored xcl) (hy : Stored ycl) (hnx : OneSign xcl) (hb : EqBinary xcl)
    (h : paraIntoInf ev n xcl i left ycl j k = .ok r)
    (tx : ClTrue I (plain xcl)) (ty : ClTrue I (plain ycl)) : ClTrue I r := by
  simp only [paraIntoInf] at h
  split at h
  · rename_i x y ex ey
    have mx := List.mem_of_getElem? ex
    have my := List.mem_of_getElem? ey
    split at h
    · cases h
    · rename_i hn
      split at h
      · rename_i a b yt pos ea et
        obtain ⟨rest, hat⟩ := eqArgs_some ea
        have hlen := hb x mx _ hat
        have hrest : rest = [] := by
          simp only [List.length_cons] at hlen
          exact List.eq_nil_of_length_eq_zero (by omega)
        subst hrest
        obtain ⟨hj, _, hp, C, hC, rfl, hch⟩ := paraTargets_pos et
        split at h
        · cases h
        · cases h
        · rename_i st eu
          have hv := hx.vars x mx
          rw [hat] at hv
          have hva : ∀ w ∈ vars a, w < 4000 := fun w h => hv w (by simp [h])
          have hvb : ∀ w ∈ vars b, w < 4000 := fun w h => hv w (by simp [h])
          have hvy : ∀ w ∈ vars yt, w < 4000 := fun w h => hy.vars y my w (by rw [hC]; exact vars_fill h)
          have hlt : ((if left then a else b) = a ∧ (if left then b else a) = b) ∨
              ((if left then a else b) = b ∧ (if left then b else a) = a) := by cases left <;> simp
          obtain ⟨θ, hd, hu, _⟩ := unify_den eu hvy (by cases left <;> assumption)
          have e1 : decLitnr (encPath i (if left then 1 else 0)) = i := by
            rw [decLitnr_enc (by cases left <;> simp)]; exact Nat.mod_eq_of_lt (by omega)
          have e2 : decPos (encPath i (if left then 1 else 0)) = if left then 1 else 0 :=
            decPos_enc (by cases left <;> simp)
          rw [e1, e2, ex] at h
          simp only [hat] at h
          have e3 : (if (if left then 1 else 0) ≠ 0 then b else a) = (if left then b else a) := by
            cases left <;> simp
          rw [e3] at h
          cases hr : paraLits ev 3 n st xcl x.addr ycl (encPath j C.posOf) (if left then b else a) with
          | ok rs s =>
            rw [hr] at h
            simp only [Asm.inf, Inf.ok.injEq] at h
            subst h
            have hcol := paraLits_spec hd mx hx.vars hy.vars hj ey hC hp (by cases left <;> assumption) hr
            exact para_core hI hev hc hx hnx mx (by simpa using hn) hat ey hC hch hlt hu.symm hcol tx ty
          | fuel => rw [hr] at h; cases h
          | illegal => rw [hr] at h; cases h
          | taut => rw [hr] at h; cases h
      · cases h
  · cases h

/-- the equation clause of the witness below: `q(a,c) | r | ... | r | a = b`, equation at 256 -/
def longClause : List ALit :=
  ⟨0, false, ap "q" [cn "a", cn "c"]⟩ :: List.replicate 255 ⟨1, false, cn "r"⟩ ++
    [⟨2, false, ap "=" [cn "a", cn "b"]⟩]

/-- a structure where `q` is true, `p` only of `a`, `r` false -/
def longModel : FO where
  D := Const
  cst c := c
  fn f _ := f
  pr f as := (f = .sym "=" ∧ ∃ x, as = [x, x]) ∨ f = .sym "q" ∨ (f = .sym "p" ∧ as = [.sym "a"]) ∨ f = aTrue

set_option maxRecDepth 20000 in
/-- Finding: the literal number of an equation is stored in 8 bits without a check
(Reasoner/clstore.c:611).  For an equation that is literal number 256 the code uses literal 0
instead: from `q(a,c) | r | ... | r | a = b` and `p(a)` it derives `r | a = b | p(c)`, which
does not follow. -/
theorem C15_para_into_literal_256_unsound : ∃ (I : Interp), EqInterp I ∧ TruthOk I ∧
    Stored longClause ∧ NoBothSigns longClause ∧ EqBinary longClause ∧
    paraIntoInf some 300 longClause 256 true [⟨7, false, ap "p" [cn "a"]⟩] 0 0 =
      .ok [⟨false, cn "r"⟩, ⟨false, ap "=" [cn "a", cn "b"]⟩, ⟨false, ap "p" [cn "c"]⟩] ∧
    ClTrue I (plain longClause) ∧ ClTrue I (plain [⟨7, false, ap "p" [cn "a"]⟩]) ∧
    ¬ ClTrue I [⟨false, cn "r"⟩, ⟨false, ap "=" [cn "a", cn "b"]⟩, ⟨false, ap "p" [cn "c"]⟩] := by
  have hmem : ∀ l ∈ longClause, l = ⟨0, false, ap "q" [cn "a", cn "c"]⟩ ∨ l = ⟨1, false, cn "r"⟩ ∨
      l = ⟨2, false, ap "=" [cn "a", cn "b"]⟩ := by
    intro l hl
    simp only [longClause, List.cons_append, List.mem_cons, List.mem_append, List.mem_replicate, List.not_mem_nil,
      or_false] at hl
    rcases hl with h | ⟨_, h⟩ | h
    · exact .inl h
    · exact .inr (.inl h)
    · exact .inr (.inr h)
  refine ⟨Interp.ofFO longModel, ofFO_eqInterp _ ?_, ⟨?_, ?_⟩, ⟨?_, ?_⟩, ?_, ?_, rfl, ?_, ?_, ?_⟩
  · intro a b; simp [longModel, aTrue]
    constructor
    · rintro ⟨x, hx⟩; cases hx; rfl
    · rintro rfl; exact ⟨a, rfl⟩
  · simp [Interp.ofFO, longModel]
  · simp [Interp.ofFO, longModel, aTrue, aFalse]
  · intro l hl; rcases hmem l hl with rfl | rfl | rfl <;> simp [ap, cn]
  · intro l hl k hk; rcases hmem l hl with rfl | rfl | rfl <;> rcases hmem k hk with rfl | rfl | rfl <;> simp
  · intro l hl k hk; rcases hmem l hl with rfl | rfl | rfl <;> rcases hmem k hk with rfl | rfl | rfl <;> simp
  · intro l hl as; rcases hmem l hl with rfl | rfl | rfl <;> simp [ap, cn]
    · rintro rfl; rfl
  · rw [ofFO_holds]
    · intro ρ
      exact ⟨_, .head _, by simp [ap, FO.atom, longModel]⟩
    · intro l hl v
      obtain ⟨k, hk, rfl⟩ := List.mem_map.1 hl
      rcases hmem k hk with rfl | rfl | rfl <;> simp [ap, cn]
  · rw [ofFO_holds]
    · intro ρ
      exact ⟨_, .head _, by simp [ap, cn, FO.atom, FO.evalL, FO.eval, longModel]⟩
    · simp [plain, ap]
  · rw [ofFO_holds]
    · intro h
      obtain ⟨l, hl, ht⟩ := h (fun _ => .sym "a")
      simp only [List.mem_cons, List.not_mem_nil, or_false] at hl
      rcases hl with rfl | rfl | rfl <;> simp [ap, cn, FO.atom, FO.evalL, FO.eval, longModel, aTrue] at ht
    · simp [ap, cn]

/-- example: `f(?1000) = b | s(?1000)` into `p(c,g(f(a)))` at the third subterm -/
example : paraFromInf some 30 [⟨10, false, ap "=" [ap "f" [.var 1000], cn "b"]⟩, ⟨11, false, ap "s" [.var 1000]⟩] 0 true
    [⟨20, false, ap "p" [cn "c", ap "g" [ap "f" [cn "a"]]]⟩] 0 2 =
    .ok [⟨false, ap "s" [cn "a"]⟩, ⟨false, ap "p" [cn "c", ap "g" [cn "b"]]⟩] := rfl

example : Stored [⟨10, false, ap "=" [ap "f" [.var 1000], cn "b"]⟩, ⟨11, false, ap "s" [.var 1000]⟩] ∧
    EqBinary [⟨10, false, ap "=" [ap "f" [.var 1000], cn "b"]⟩, ⟨11, false, ap "s" [.var 1000]⟩] := by
  refine ⟨⟨?_, ?_⟩, ?_⟩
  · simp [ap, cn]
  · simp
  · simp [EqBinary, ap]

/-! ## C16 -/

/-- C16: a resolvent is equivalent to the remaining instantiated literals. -/
theorem C16_resolvent_equivalent (n : Nat) (ev : Term → Option Term) (xcl ycl : List ALit) (i j : Nat) (r : List Lit)
    (hx : Stored xcl) (hy : Stored ycl) (h : resolveInf ev n xcl i ycl j = .ok r) :
    ∃ x y θ, xcl[i]? = some x ∧ ycl[j]? = some y ∧ Mgu θ x.atom y.atom ∧
      ∀ I, EvSound I ev → TruthOk I → (ClTrue I r ↔ ClTrue I ((without xcl x ++ without ycl y).map (Lit.subst θ))) := by
  obtain ⟨x, y, θ, st, ex, ey, hs, hm, hd, ho⟩ := resolveInf_cases hx hy h (fun h => nomatch h) (fun h => nomatch h)
  obtain ⟨s, hr⟩ := Asm.inf_ok ho
  refine ⟨x, y, θ, ex, ey, hm, fun I hev hc => ?_⟩
  rw [without_eq, without_eq]
  exact (resolveLits_spec hd (List.mem_of_getElem? ex) (List.mem_of_getElem? ey) hx.vars hy.vars hr).equiv hev hc

/-- C16: a resolvent dropped as a tautology is true in every interpretation. -/
theorem C16_dropped_resolvent_valid (n : Nat) (ev : Term → Option Term) (xcl ycl : List ALit) (i j : Nat)
    (hx : Stored xcl) (hy : Stored ycl) (h : resolveInf ev n xcl i ycl j = .dropped true) :
    ∃ x y θ, xcl[i]? = some x ∧ ycl[j]? = some y ∧ Mgu θ x.atom y.atom ∧
      ∀ I, EvSound I ev → TruthOk I → ClTrue I ((without xcl x ++ without ycl y).map (Lit.subst θ)) := by
  obtain ⟨x, y, θ, st, ex, ey, hs, hm, hd, ho⟩ := resolveInf_cases hx hy h (fun h => nomatch h) (fun h => nomatch h)
  refine ⟨x, y, θ, ex, ey, hm, fun I hev hc => ?_⟩
  rw [without_eq, without_eq]
  exact (resolveLits_taut hd (List.mem_of_getElem? ex) hx.vars hy.vars (Asm.inf_taut ho)).valid hev hc

/-- C16: the only other reason for dropping a resolvent is more than 1000 distinct variables. -/
theorem C16_dropped_only_for_many_variables (n : Nat) (xcl ycl : List ALit) (i j : Nat)
    (hx : Stored xcl) (hy : Stored ycl) (h : resolveInf some n xcl i ycl j = .dropped false) :
    ∃ x y θ, xcl[i]? = some x ∧ ycl[j]? = some y ∧ Mgu θ x.atom y.atom ∧
      ∃ l : List Nat, l.Nodup ∧ 1000 < l.length ∧ ∀ v ∈ l, v ∈ clVars ((without xcl x ++ without ycl y).map (Lit.subst θ)) := by
  obtain ⟨x, y, θ, st, ex, ey, hs, hm, hd, ho⟩ := resolveInf_cases hx hy h (fun h => nomatch h) (fun h => nomatch h)
  refine ⟨x, y, θ, ex, ey, hm, ?_⟩
  rw [without_eq, without_eq]
  obtain ⟨l, h1, h2, h3⟩ := resolveLits_illegal (fun t => by simp) hd hx.vars hy.vars (Asm.inf_illegal ho)
  refine ⟨l, h1, h2, fun v hv => ?_⟩
  rcases h3 v hv with h | h
  · cases h
  · obtain ⟨t, ht, hvt⟩ := mem_varsL.1 h
    obtain ⟨k, hk, rfl⟩ := List.mem_map.1 ht
    exact clVars_mem.2 ⟨k, hk, hvt⟩

/-- C16: the same for paramodulants. -/
theorem C16_paramodulant_equivalent (n : Nat) (ev : Term → Option Term) (xcl ycl : List ALit) (i : Nat) (left : Bool)
    (j k : Nat) (r : List Lit) (hx : Stored xcl) (hy : Stored ycl) (h : paraFromInf ev n xcl i left ycl j k = .ok r) :
    ∃ x y a b rest, ∃ C : Ctx, ∃ u θ, xcl[i]? = some x ∧ ycl[j]? = some y ∧
      x.atom = .app (.sym "=") (a :: b :: rest) ∧ y.atom = C.fill u ∧ Mgu θ (if left then a else b) u ∧
      ∀ I, EvSound I ev → TruthOk I → (ClTrue I r ↔
        ClTrue I ((without xcl x ++ replaced ycl j y.neg C (if left then b else a)).map (Lit.subst θ))) := by
  obtain ⟨x, y, a, b, rest, C, u, θ, st, ex, ey, hn, hat, hC, hch, hnv, hj, hp, et, hm, hd, ho⟩ :=
    paraFrom_cases hx hy h (fun h => nomatch h) (fun h => nomatch h)
  obtain ⟨s, hr⟩ := Asm.inf_ok ho
  refine ⟨x, y, a, b, rest, C, u, θ, ex, ey, hat, hC, hm, fun I hev hc => ?_⟩
  rw [without_eq]
  have mx := List.mem_of_getElem? ex
  have hv := hx.vars x mx
  rw [hat] at hv
  have hva : ∀ w ∈ vars a, w < 4000 := fun w h => hv w (by simp [h])
  have hvb : ∀ w ∈ vars b, w < 4000 := fun w h => hv w (by simp [h])
  exact (paraLits_spec hd mx hx.vars hy.vars hj ey hC hp (by cases left <;> assumption) hr).equiv hev hc

theorem C16_dropped_paramodulant_valid (n : Nat) (ev : Term → Option Term) (xcl ycl : List ALit) (i : Nat) (left : Bool)
    (j k : Nat) (hx : Stored xcl) (hy : Stored ycl) (h : paraFromInf ev n xcl i left ycl j k = .dropped true) :
    ∃ x y a b rest, ∃ C : Ctx, ∃ u θ, xcl[i]? = some x ∧ ycl[j]? = some y ∧
      x.atom = .app (.sym "=") (a :: b :: rest) ∧ y.atom = C.fill u ∧ Mgu θ (if left then a else b) u ∧
      ∀ I, EvSound I ev → TruthOk I →
        ClTrue I ((without xcl x ++ replaced ycl j y.neg C (if left then b else a)).map (Lit.subst θ)) := by
  obtain ⟨x, y, a, b, rest, C, u, θ, st, ex, ey, hn, hat, hC, hch, hnv, hj, hp, et, hm, hd, ho⟩ :=
    paraFrom_cases hx hy h (fun h => nomatch h) (fun h => nomatch h)
  refine ⟨x, y, a, b, rest, C, u, θ, ex, ey, hat, hC, hm, fun I hev hc => ?_⟩
  rw [without_eq]
  have mx := List.mem_of_getElem? ex
  have hv := hx.vars x mx
  rw [hat] at hv
  have hva : ∀ w ∈ vars a, w < 4000 := fun w h => hv w (by simp [h])
  have hvb : ∀ w ∈ vars b, w < 4000 := fun w h => hv w (by simp [h])
  exact (paraLits_taut hd mx hx.vars hy.vars hj ey hC hp (by cases left <;> assumption) (Asm.inf_taut ho)).valid hev hc

/-- C16: for factors. -/
theorem C16_factor_equivalent (n : Nat) (ev : Term → Option Term) (xcl : List ALit) (i j : Nat) (hx : Stored xcl)
    (o : Inf) (h : factorInf ev n xcl i j = o) (hn : o ≠ .none) (hf : o ≠ .fuel) :
    ∃ x y θ, xcl[i]? = some x ∧ xcl[j]? = some y ∧ x.neg = y.neg ∧ Mgu θ x.atom y.atom ∧
      ∀ I, EvSound I ev → TruthOk I →
        (∀ r, o = .ok r → (ClTrue I r ↔ ClTrue I ((without xcl x).map (Lit.subst θ)))) ∧
        (o = .dropped true → ClTrue I ((without xcl x).map (Lit.subst θ))) := by
  simp only [factorInf] at h
  split at h
  · split at h
    · rename_i x y ex ey
      have mx := List.mem_of_getElem? ex
      have my := List.mem_of_getElem? ey
      split at h
      · exact absurd h.symm hn
      · rename_i hs
        split at h
        · split at h
          · exact absurd h.symm hf
          · exact absurd h.symm hn
          · rename_i st eu
            obtain ⟨θ, hd, hu, hm⟩ := unify_den eu (hx.vars x mx) (hx.vars y my)
            refine ⟨x, y, θ, ex, ey, by simpa using hs, ⟨hu, fun τ hτ => ⟨τ, hm τ hτ⟩⟩, fun I hev hc => ⟨?_, ?_⟩⟩
            · rintro r rfl
              obtain ⟨s, hr⟩ := Asm.inf_ok h
              rw [without_eq]
              exact (factorLits_spec hd mx hx.vars hr).equiv hev hc
            · rintro rfl
              rw [without_eq]
              exact (factorLits_taut hd hx.vars (Asm.inf_taut h)).valid hev hc
        · exact absurd h.symm hn
    · exact absurd h.symm hn
  · exact absurd h.symm hn

/-- C16: the tautology check finds exactly the clauses with an atom of both signs, for any
summary of atoms it compares first. -/
theorem C16_tautology_check (m : Term → Nat) (cl : List Lit) :
    tautCl m cl = true ↔ ∃ l ∈ cl, ∃ k ∈ cl, l.neg ≠ k.neg ∧ l.atom = k.atom := by
  induction cl with
  | nil => simp [tautCl]
  | cons l ls ih =>
    simp only [tautCl, Bool.or_eq_true, List.any_eq_true, Bool.and_eq_true, beq_iff_eq, bne_iff_ne, C06_equal_term_decides, ih]
    constructor
    · rintro (⟨k, hk, ⟨_, h2⟩, h3⟩ | ⟨a, ha, b, hb, h⟩)
      · exact ⟨l, by simp, k, by simp [hk], h2, h3⟩
      · exact ⟨a, by simp [ha], b, by simp [hb], h⟩
    · rintro ⟨a, ha, b, hb, h1, h2⟩
      rcases List.mem_cons.1 ha with ha' | ha' <;> rcases List.mem_cons.1 hb with hb' | hb'
      · subst ha'; subst hb'; exact absurd rfl h1
      · subst ha'; exact .inl ⟨b, hb', ⟨by rw [h2], h1⟩, h2⟩
      · subst hb'; exact .inl ⟨a, ha', ⟨by rw [h2], Ne.symm h1⟩, h2.symm⟩
      · exact .inr ⟨a, ha', b, hb', h1, h2⟩

/-- C16: so the clauses it lets through meet the hypothesis of C13 (addresses aside). -/
theorem C16_tautology_check_valid (m : Term → Nat) (cl : List Lit) (h : tautCl m cl = true) (I : Interp) : ClTrue I cl := by
  obtain ⟨l, hl, k, hk, h1, h2⟩ := (C16_tautology_check m cl).1 h
  intro ρ
  rcases Compl.tr ⟨h1, h2⟩ ρ with h | h
  · exact ⟨l, hl, h⟩
  · exact ⟨k, hk, h⟩

theorem C16_tautology_check_admits (m : Term → Nat) (cl : List ALit) (h : tautCl m (plain cl) = false) : NoBothSigns cl := by
  intro l hl k hk e
  apply Classical.byContradiction
  intro hn
  have : tautCl m (plain cl) = true := (C16_tautology_check m _).2
    ⟨⟨l.neg, l.atom⟩, List.mem_map_of_mem hl, ⟨k.neg, k.atom⟩, List.mem_map_of_mem hk, hn, e⟩
  rw [h] at this; cases this

/-- example: a resolvent that is a tautology, and one with a repeated literal -/
example : resolveInf some 20 [⟨1, false, ap "p" [.var 1000]⟩, ⟨2, false, ap "q" [.var 1000]⟩] 0
    [⟨3, true, ap "p" [cn "a"]⟩, ⟨4, true, ap "q" [cn "a"]⟩] 0 = .dropped true := rfl
example : resolveInf some 20 [⟨1, false, ap "p" [.var 1000]⟩, ⟨2, false, ap "q" [.var 1000]⟩] 0
    [⟨3, true, ap "p" [cn "a"]⟩, ⟨4, false, ap "q" [cn "a"]⟩] 0 = .ok [⟨false, ap "q" [cn "a"]⟩] := rfl
/-- evaluation that is right somewhere: the identity -/
example (I : Interp) : EvSound I some := by
  intro t t' h
  simp_all

end Gkc.Props
