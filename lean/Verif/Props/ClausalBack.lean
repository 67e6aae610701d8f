import Verif.Props.Clausal
import Mathlib.Data.List.Perm.Subperm
import Mathlib.Data.List.Nodup
/-
C41: turning formulas into clauses loses nothing.
-/
namespace Gkc.Props
open Gkc Gkc.Clausify
open Gkc.Term (vars varsL)

/-! ### From clauses back to formulas -/

/-- variables of a flat clause with the same string are the same -/
def FVUniq (c : VarCfg) : FCl → Prop
  | .tru => True
  | .lits ls => ∀ n m, (∃ l ∈ ls, freeIn n l) → (∃ l ∈ ls, freeIn m l) → isVar c n = true → isVar c m = true → n.str = m.str → n = m

theorem flat_vuniq {c : VarCfg} {g : Frm} (hc : Cnf g) (u : VUniq c g) {cs : List FCl} (e : flat g = some cs) :
    ∀ fc ∈ cs, FVUniq c fc := by
  obtain ⟨cs', e', hl, _⟩ := C29_flatten_equivalent hc
  rw [e] at e'
  cases e'
  intro fc hfc
  cases fc with
  | tru => trivial
  | lits ls =>
    rintro n m ⟨l, h1, h2⟩ ⟨l', h1', h2'⟩
    exact u n m ((hl ls hfc l h1).2 n h2) ((hl ls hfc l' h1').2 m h2')

theorem flat_back {D : Type} {c : VarCfg} {sg : Const → SRole} {g : Frm} (hc : Cnf g) (w : WtF c sg g) {cs : List FCl}
    (e : flat g = some cs) {S : Str D} (hS : S.Truth) (h : ∀ fc ∈ cs, ∀ τ, S.Val c τ → FCl.Holds S.fint τ fc) : Sat c S g := by
  obtain ⟨wl, _⟩ := flat_true (D := D) hc w e
  obtain ⟨cs', e', _, hs⟩ := C29_flatten_equivalent hc
  rw [e] at e'
  cases e'
  intro τ hτ
  have hq : ∀ fc ∈ cs, FCl.Holds S.quoted τ fc := by
    intro fc hfc
    have := h fc hfc τ hτ
    cases fc with
    | tru => trivial
    | lits ls =>
      obtain ⟨l, hm, h⟩ := this
      exact ⟨l, hm, (holds_congr l (fun _ _ => rfl) (fun n hn => by
        have := S.quoted_name (((wl _ hfc) l hm).2.head hn).1
        exact ⟨this.1.symm, this.2.symm⟩)).1 h⟩
  have := (hs S.quoted τ (Str.quoted_truth hS)).1 hq
  exact (holds_congr g (fun _ _ => rfl) (fun n hn => S.quoted_name (w.head hn).1)).1 this

theorem clausifyAll_rel {c : VarCfg} {strat : Bool} {fuel : Nat} : ∀ {items : List Item} {sn nr : Nat} {fcs : List FCl},
    clausifyAll c strat fuel sn nr items = some fcs → Clausifies c strat fuel sn nr items fcs
  | [], sn, nr, fcs, h => by
    simp only [clausifyAll, Option.some.injEq] at h
    subst h
    exact .nil
  | it :: its, sn, nr, fcs, h => by
    simp only [clausifyAll] at h
    obtain ⟨⟨g, sn', nr'⟩, e, h⟩ := Option.bind_eq_some_iff.1 h
    obtain ⟨cs, ef, h⟩ := Option.bind_eq_some_iff.1 h
    obtain ⟨ds, er, rfl⟩ := Option.map_eq_some_iff.1 h
    exact .one e ef (clausifyAll_rel er)

theorem clausifyAll_back {c : VarCfg} {strat : Bool} {fuel : Nat} : ∀ {items : List Item} {sn nr : Nat} {fcs : List FCl} (sg : Const → SRole),
    clausifyAll c strat fuel sn nr items = some fcs → Fresh sn nr sg → (∀ it ∈ items, Adm c sg it.prepared) →
    ∃ sg', Ext sn nr sg sg' ∧ (∀ fc ∈ fcs, FWt c sg' fc ∧ FVUniq c fc) ∧
      ∀ {D : Type} (S : Str D), S.Truth → (∀ fc ∈ fcs, ∀ τ, S.Val c τ → FCl.Holds S.fint τ fc) → ∀ it ∈ items, Sat c S it.prepared
  | [], sn, nr, fcs, sg, h, _, _ => by
    simp only [clausifyAll, Option.some.injEq] at h
    subst h
    exact ⟨sg, .refl _ _ _, by simp, fun _ _ _ => by simp⟩
  | it :: its, sn, nr, fcs, sg, h, hF, ha => by
    simp only [clausifyAll] at h
    obtain ⟨⟨g, sn', nr'⟩, e, h⟩ := Option.bind_eq_some_iff.1 h
    obtain ⟨cs, ef, h⟩ := Option.bind_eq_some_iff.1 h
    obtain ⟨ds, er, rfl⟩ := Option.map_eq_some_iff.1 h
    obtain ⟨sg1, l1, l2, x1, F1, cn, w1, u1, b1, _⟩ := clausify_ok hF (ha it (by simp)) e
    obtain ⟨sg2, x2, w2, k2⟩ := clausifyAll_back sg1 er F1 (fun it hm => (ha it (by simp [hm])).mono hF x1)
    refine ⟨sg2, x1.trans l1 l2 x2, fun fc hm => ?_, fun {D} S hT hS it' hm => ?_⟩
    · rcases List.mem_append.1 hm with hm | hm
      · exact ⟨((flat_true (D := Unit) cn w1 ef).1 fc hm).mono F1 x2, flat_vuniq cn u1 ef fc hm⟩
      · exact w2 fc hm
    · rcases List.mem_cons.1 hm with rfl | hm
      · exact b1 S (flat_back cn w1 ef hT (fun fc h => hS fc (List.mem_append.2 (.inl h))))
      · exact k2 S hT (fun fc h => hS fc (List.mem_append.2 (.inr h))) it' hm

theorem idxOf_inj {W : List String} {a b : String} (ha : a ∈ W) (hb : b ∈ W) (e : W.idxOf a = W.idxOf b) : a = b := by
  have g1 := List.getElem_idxOf (List.idxOf_lt_length_of_mem ha)
  have g2 := List.getElem_idxOf (List.idxOf_lt_length_of_mem hb)
  rw [← g1, ← g2]
  simp only [e]

open Classical in
theorem build_back {c : VarCfg} {sg : Const → SRole} (hp : sg (.sym "$pr") = .unused) {M : FO} {S : Str M.D} (hr : Reads sg M S)
    {fc : FCl} (w : FWt c sg fc) (u : FVUniq c fc) {Ls : List Gkc.Lit} (h : buildCl c fc = some Ls) (hM : M.holds Ls) (τ : Nm → M.D)
    (hτ : S.Val c τ) : FCl.Holds S.fint τ fc := by
  cases fc with
  | tru => trivial
  | lits ls =>
    obtain ⟨_, W, _, hm, k⟩ := buildLs_ok hp hr ls [] Ls w (by simp) h
    let P : Nat → Nm → Prop := fun i n => isVar c n = true ∧ (∃ l ∈ ls, freeIn n l) ∧ W.idxOf n.str = i
    let ρ : Nat → M.D := fun i => if h : ∃ n, P i n then τ (choose h) else τ (uri "")
    obtain ⟨l, hl, hh⟩ := (k ρ).2 (hM ρ)
    refine ⟨l, hl, (holds_congr l (fun n hn => ?_) (fun _ _ => ⟨rfl, rfl⟩)).1 hh⟩
    unfold Str.env
    cases e : isVar c n with
    | false =>
      simp only [Bool.false_eq_true, if_false]
      exact (hτ n e).symm
    | true =>
      have ex : ∃ m, P (W.idxOf n.str) m := ⟨n, e, ⟨l, hl, hn⟩, rfl⟩
      obtain ⟨a, ⟨l', b, b'⟩, d⟩ := choose_spec ex
      have hs : (choose ex).str = n.str := idxOf_inj (hm l' b _ b' a) (hm l hl n hn e) d
      have := u _ n ⟨l', b, b'⟩ ⟨l, hl, hn⟩ a e hs
      simp only [if_true, ρ, dif_pos ex, this]

open Classical in
/-- the structure in which a propositional symbol means `$pr` of it -/
noncomputable def _root_.Gkc.FO.props (N : FO) (sg : Const → SRole) : FO where
  D := N.D
  cst := N.cst
  fn := N.fn
  pr k ds := if sg k = .prop ∧ ds = [] then N.pr (.sym "$pr") [N.cst k] else N.pr k ds

theorem FO.props_reads {N : FO} {sg : Const → SRole} : Reads sg N (N.props sg).str := by
  refine ⟨fun _ _ => rfl, fun _ _ => rfl, fun k h _ => funext fun ds => ?_, fun k h => ?_⟩
  · simp [FO.str, FO.props, h]
  · simp [FO.str, FO.props, h]

theorem buildAll_mem {c : VarCfg} : ∀ {fcs : List FCl} {lss : List (List Gkc.Lit)}, buildAll c fcs = some lss →
    (∀ fc ∈ fcs, ∃ ls ∈ lss, buildCl c fc = some ls) ∧ ∀ ls ∈ lss, ∃ fc ∈ fcs, buildCl c fc = some ls
  | [], lss, h => by
    simp only [buildAll, Option.some.injEq] at h
    subst h
    simp
  | fc :: fcs, lss, h => by
    simp only [buildAll] at h
    obtain ⟨ls, e, h⟩ := Option.bind_eq_some_iff.1 h
    obtain ⟨lss', e', rfl⟩ := Option.map_eq_some_iff.1 h
    obtain ⟨a, b⟩ := buildAll_mem e'
    refine ⟨fun fc' hm => ?_, fun ls' hm => ?_⟩
    · rcases List.mem_cons.1 hm with rfl | hm
      · exact ⟨ls, by simp, e⟩
      · obtain ⟨x, hx, ex⟩ := a fc' hm
        exact ⟨x, by simp [hx], ex⟩
    · rcases List.mem_cons.1 hm with rfl | hm
      · exact ⟨fc, by simp, e⟩
      · obtain ⟨x, hx, ex⟩ := b ls' hm
        exact ⟨x, by simp [hx], ex⟩

theorem Adm.prepared {c : VarCfg} {sg : Const → SRole} {it : Item} (a : Adm c sg it.frm) : Adm c sg it.prepared := by
  unfold Item.prepared
  split
  · exact ⟨.neg a.two, a.bound, a.names, a.wt⟩
  · exact a

theorem Ext.keep {sn nr : Nat} {sg sg' : Const → SRole} (x : Ext sn nr sg sg') {q : String} (h : q ∈ ["=", "$true", "$false", "$pr"]) :
    sg' (.sym q) = sg (.sym q) := by
  refine x _ (fun s hs e => new_ne hs ?_)
  rw [← Const.sym.inj e]
  simp only [List.mem_cons, List.not_mem_nil, or_false] at h
  rcases h with rfl | rfl | rfl | rfl <;> simp

/-- the conjecture follows: in every structure satisfying `C` in which `=` is identity and the truth
constants mean what they say, if the axioms are true, then some conjecture is true for some values of its
free variables -/
def Follows (c : VarCfg) (C : FO → Prop) (items : List Item) : Prop :=
  ∀ M : FO, C M → (∀ a b, M.pr (.sym "=") [a, b] ↔ a = b) → M.pr (.sym "$true") [] → ¬ M.pr (.sym "$false") [] →
    (∀ it ∈ items, it.conj = false → Sat c M.str it.frm) → ∃ it ∈ items, it.conj = true ∧ ∃ τ, M.str.Val c τ ∧ M.str.fint.holds τ it.frm

/-- the clauses are contradictory: no structure satisfying `C` in which `=` is identity and the truth
constants, as arguments of `$pr`, mean what they say makes all of them true -/
def Contra (C : FO → Prop) (lss : List (List Gkc.Lit)) : Prop :=
  ∀ N : FO, C N → (∀ a b, N.pr (.sym "=") [a, b] ↔ a = b) → N.pr (.sym "$pr") [N.cst (.sym "$true")] →
    ¬ N.pr (.sym "$pr") [N.cst (.sym "$false")] → ∃ ls ∈ lss, ¬ N.holds ls

/-- a condition on structures that only looks at the domain -/
def OnDomain (C : FO → Prop) : Prop := ∀ M N : FO, M.D = N.D → C M → C N

/-- C41.  Turning formulas into clauses loses nothing: if all formulas are accepted and the conjecture
follows from the axioms, then the clauses given to the prover are contradictory.  (`C` restricts
the size of the structures, for instance `fun _ => True`.) -/
theorem C41_consequence_means_contradictory {c : VarCfg} {strat : Bool} {fuel sn nr : Nat} {items : List Item} {fcs : List FCl}
    {lss : List (List Gkc.Lit)} (sg : Const → SRole) (hF : Fresh sn nr sg) (hp : sg (.sym "$pr") = .unused)
    (htr : sg (.sym "$true") = .prop) (hfa : sg (.sym "$false") = .prop) (ha : ∀ it ∈ items, Adm c sg it.frm)
    (hc : clausifyAll c strat fuel sn nr items = some fcs) (hb : buildAll c fcs = some lss)
    (C : FO → Prop) (hC : OnDomain C) (h : Follows c C items) : Contra C lss := by
  intro N hN he h1 h0
  by_cases goal : ∃ ls ∈ lss, ¬ N.holds ls
  · exact goal
  exfalso
  have all : ∀ ls ∈ lss, N.holds ls := fun ls hm => Classical.byContradiction fun hn => goal ⟨ls, hm, hn⟩
  obtain ⟨sg', x, w, k⟩ := clausifyAll_back sg hc hF (fun it hm => (ha it hm).prepared)
  have hp' : sg' (.sym "$pr") = .unused := by rw [x.keep (by simp), hp]
  have htr' : sg' (.sym "$true") = .prop := by rw [x.keep (by simp), htr]
  have hfa' : sg' (.sym "$false") = .prop := by rw [x.keep (by simp), hfa]
  have t1 : (N.props sg').pr (.sym "$true") [] := by simpa [FO.props, htr'] using h1
  have t0 : ¬ (N.props sg').pr (.sym "$false") [] := by simpa [FO.props, hfa'] using h0
  have sat := k (N.props sg').str ⟨t1, t0⟩ (fun fc hm τ hτ => by
    obtain ⟨ls, hl, e⟩ := (buildAll_mem hb).1 fc hm
    exact build_back hp' FO.props_reads (w fc hm).1 (w fc hm).2 e (all ls hl) τ hτ)
  obtain ⟨it, hm, hcj, τ, hτ, hh⟩ := h (N.props sg') (hC N _ rfl hN) (fun a b => by
      have : (N.props sg').pr (.sym "=") [a, b] = N.pr (.sym "=") [a, b] := by simp [FO.props]
      rw [this]
      exact he a b) t1 t0 (fun it hm hcj => by
      have := sat it hm
      unfold Item.prepared at this
      rw [hcj] at this
      exact this)
  have := sat it hm
  unfold Item.prepared at this
  rw [hcj] at this
  exact this τ hτ hh

/-- C41.  And adds nothing, for structures with at least two elements: the two are the same. -/
theorem C41_consequence_iff_contradictory {c : VarCfg} {strat : Bool} {fuel sn nr : Nat} {items : List Item} {fcs : List FCl}
    {lss : List (List Gkc.Lit)} (sg : Const → SRole) (hF : Fresh sn nr sg) (hp : sg (.sym "$pr") = .unused)
    (htr : sg (.sym "$true") = .prop) (hfa : sg (.sym "$false") = .prop) (ha : ∀ it ∈ items, Adm c sg it.frm)
    (hc : clausifyAll c strat fuel sn nr items = some fcs) (hb : buildAll c fcs = some lss) :
    Follows c (fun M => ∃ a b : M.D, a ≠ b) items ↔ Contra (fun M => ∃ a b : M.D, a ≠ b) lss := by
  refine ⟨C41_consequence_means_contradictory sg hF hp htr hfa ha hc hb _ (fun M N e h => by rw [← e]; exact h), fun h M ⟨d0, d1, hd⟩ he h1 h0 hax => ?_⟩
  by_cases goal : ∃ it ∈ items, it.conj = true ∧ ∃ τ, M.str.Val c τ ∧ M.str.fint.holds τ it.frm
  · exact goal
  exfalso
  have hT : M.str.Truth := ⟨h1, h0⟩
  have sat : ∀ it ∈ items, Sat c M.str it.prepared := by
    intro it hm
    unfold Item.prepared
    split
    · rename_i hcj
      exact fun τ hτ hh => goal ⟨it, hm, hcj, τ, hτ, hh⟩
    · rename_i hcj
      exact hax it hm (by simpa using hcj)
  obtain ⟨sg', x, w, k⟩ := clausifies_ok (clausifyAll_rel hc) sg hF (fun it hm => (ha it hm).prepared)
  obtain ⟨S, o, hS⟩ := k M.str hT sat
  have hp' : sg' (.sym "$pr") = .unused := by rw [x.keep (by simp), hp]
  have htr' : sg' (.sym "$true") = .prop := by rw [x.keep (by simp), htr]
  have hfa' : sg' (.sym "$false") = .prop := by rw [x.keep (by simp), hfa]
  have hT' := o.truth hT
  have hr := S.cl_reads hp' hd
  obtain ⟨ls, hl, bad⟩ := h (S.cl sg' d0 d1) ⟨d0, d1, hd⟩ (fun a b => by
      have : (S.cl sg' d0 d1).pr (.sym "=") [a, b] = S.pr (.sym "=") [a, b] := by simp [Str.cl, aTrue, aFalse]
      rw [this, (o (.sym "=") (fun s hs e => new_ne hs (by rw [← Const.sym.inj e]; simp))).2.2]
      exact he a b) ((hr.prop _ htr').2 hT'.1) (fun q => hT'.2 ((hr.prop _ hfa').1 q))
  obtain ⟨fc, hm, e⟩ := (buildAll_mem hb).2 ls hl
  exact bad ((buildCl_ok hp' hr htr' hT' (w fc hm) e).2 (hS fc hm))

/-! ### Formulas are accepted -/

theorem varNr_total {L vd : List String} {s : String} (hL : L.length ≤ 1000) (hn : vd.Nodup) (hs : ∀ x ∈ vd, x ∈ L) (hm : s ∈ L) :
    ∃ v vd', varNr vd s = some (v, vd') ∧ vd'.Nodup ∧ ∀ x ∈ vd', x ∈ L := by
  unfold varNr
  by_cases h : s ∈ vd
  · exact ⟨_, vd, by rw [if_pos h], hn, hs⟩
  · have nd : (s :: vd).Nodup := List.nodup_cons.2 ⟨h, hn⟩
    have le := (List.subperm_of_subset nd (fun x hx => (List.mem_cons.1 hx).elim (fun e => e ▸ hm) (hs x))).length_le
    simp only [List.length_cons] at le
    refine ⟨vd.length, vd ++ [s], by rw [if_neg h, if_pos (by omega)], ?_, fun x hx => ?_⟩
    · rw [List.nodup_append]
      refine ⟨hn, by simp, fun a ha b hb => ?_⟩
      rw [List.mem_singleton.1 hb]
      rintro rfl
      exact h ha
    · rcases List.mem_append.1 hx with hx | hx
      · exact hs x hx
      · rw [List.mem_singleton.1 hx]
        exact hm

section
variable {c : VarCfg} {sg : Const → SRole} {L : List String} (hL : L.length ≤ 1000)

include hL in
mutual
theorem buildT_total : ∀ (t : FT) (vd : List String), WtFT c sg t → (∀ n ∈ namesT t, isVar c n = true → n.str ∈ L) → vd.Nodup →
    (∀ x ∈ vd, x ∈ L) → ∃ T vd', buildT c vd t = some (T, vd') ∧ vd'.Nodup ∧ ∀ x ∈ vd', x ∈ L
  | .nm n, vd, w, hv, hn, hs => by
    simp only [buildT]
    split
    · rename_i h
      obtain ⟨v, vd', e, a, b⟩ := varNr_total hL hn hs (hv n (by simp [namesT]) h)
      exact ⟨_, vd', by rw [e]; rfl, a, b⟩
    · rename_i h
      obtain ⟨ok, h13, _⟩ := w.resolve_left h
      exact ⟨_, vd, by rw [primOf_ok ok (.inr h13)]; rfl, hn, hs⟩
  | .app f as, vd, w, hv, hn, hs => by
    obtain ⟨ok, _, okf, _, wl⟩ := w
    obtain ⟨As, vd', e, a, b⟩ := buildTL_total as vd wl (fun n hm => hv n (by simp [namesT, hm])) hn hs
    exact ⟨_, vd', by simp only [buildT, if_neg okf.1, renameF_ok ok okf, e]; rfl, a, b⟩
theorem buildTL_total : ∀ (ts : List FT) (vd : List String), WtFTL c sg ts → (∀ n ∈ namesTL ts, isVar c n = true → n.str ∈ L) → vd.Nodup →
    (∀ x ∈ vd, x ∈ L) → ∃ Ts vd', buildTL c vd ts = some (Ts, vd') ∧ vd'.Nodup ∧ ∀ x ∈ vd', x ∈ L
  | [], vd, _, _, hn, hs => ⟨[], vd, rfl, hn, hs⟩
  | t :: ts, vd, w, hv, hn, hs => by
    obtain ⟨A, vd1, e1, a1, b1⟩ := buildT_total t vd w.1 (fun n hm => hv n (by simp [namesTL, hm])) hn hs
    obtain ⟨As, vd2, e2, a2, b2⟩ := buildTL_total ts vd1 w.2 (fun n hm => hv n (by simp [namesTL, hm])) a1 b1
    exact ⟨_, vd2, by simp only [buildTL, e1, e2, Option.bind_some]; rfl, a2, b2⟩
end

include hL in
theorem buildA_total (t : FT) (vd : List String) (w : WtFA c sg t) (hv : ∀ n ∈ namesT t, isVar c n = true → n.str ∈ L) (hn : vd.Nodup)
    (hs : ∀ x ∈ vd, x ∈ L) : ∃ T vd', buildA c vd t = some (T, vd') ∧ vd'.Nodup ∧ ∀ x ∈ vd', x ∈ L := by
  cases t with
  | nm n =>
    obtain ⟨ok, h13, hvn, _⟩ := w
    exact ⟨_, vd, by simp only [buildA, buildT, hvn, Bool.false_eq_true, if_false, primOf_ok ok (.inr h13)]; rfl, hn, hs⟩
  | app p as =>
    obtain ⟨ok, _, _, _, wl⟩ := w
    obtain ⟨As, vd', e, a, b⟩ := buildTL_total hL as vd wl (fun n hm => hv n (by simp [namesT, hm])) hn hs
    exact ⟨_, vd', by simp only [buildA, primOf_ok ok (.inl rfl), e]; rfl, a, b⟩

include hL in
theorem buildLs_total : ∀ (ls : List Frm) (vd : List String), (∀ l ∈ ls, Lit l ∧ WtF c sg l) →
    (∀ l ∈ ls, ∀ n, freeIn n l → isVar c n = true → n.str ∈ L) → vd.Nodup → (∀ x ∈ vd, x ∈ L) → ∃ Ls, buildLs c vd ls = some Ls
  | [], vd, _, _, _, _ => ⟨[], rfl⟩
  | l :: ls, vd, w, hv, hn, hs => by
    have one : ∃ L' vd', Clausify.buildL c vd l = some (L', vd') ∧ vd'.Nodup ∧ ∀ x ∈ vd', x ∈ L := by
      obtain ⟨lit, wt⟩ := w l (by simp)
      have hv := hv l (by simp)
      cases lit with
      | «at» t =>
        obtain ⟨T, vd', e, a, b⟩ := buildA_total hL t vd (wt t rfl) hv hn hs
        exact ⟨_, vd', by simp only [Clausify.buildL, e]; rfl, a, b⟩
      | neg t =>
        obtain ⟨T, vd', e, a, b⟩ := buildA_total hL t vd (wt t rfl) hv hn hs
        exact ⟨_, vd', by simp only [Clausify.buildL, e]; rfl, a, b⟩
    obtain ⟨L', vd', e, a, b⟩ := one
    obtain ⟨Ls, e'⟩ := buildLs_total ls vd' (fun l hl => w l (by simp [hl])) (fun l hl => hv l (by simp [hl])) a b
    exact ⟨_, by simp only [buildLs, e, e', Option.bind_some]; rfl⟩
end

theorem buildAll_total {c : VarCfg} : ∀ {fcs : List FCl}, (∀ fc ∈ fcs, ∃ ls, buildCl c fc = some ls) → ∃ lss, buildAll c fcs = some lss
  | [], _ => ⟨[], rfl⟩
  | fc :: fcs, h => by
    obtain ⟨ls, e⟩ := h fc (by simp)
    obtain ⟨lss, e'⟩ := buildAll_total (fcs := fcs) (fun fc hm => h fc (by simp [hm]))
    exact ⟨_, by simp only [buildAll, e, e', Option.bind_some]; rfl⟩

theorem buildCl_tru (c : VarCfg) : ∃ ls, buildCl c .tru = some ls := by
  have e : isVar c ⟨13, "$true"⟩ = false := rfl
  have e' : primOf false ⟨13, "$true"⟩ = some (.sym "$true") := by decide
  exact ⟨_, by simp only [buildCl, buildLs, Clausify.buildL, buildA, buildT, e, Bool.false_eq_true, if_false, e', Option.map_some, Option.bind_some]; rfl⟩

/-- what a formula must satisfy to be accepted: a formula in parentheses has no variables that are
reported as free; an atom has at most 1000 variables; of other formulas at most 999 variables remain
when quantifiers are removed -/
def Small (c : VarCfg) : Frm → Prop
  | .at t => ∃ L : List String, L.length ≤ 1000 ∧ ∀ n ∈ namesT t, isVar c n = true → n.str ∈ L
  | .par f => freeF c [] (.par f) = [] ∧ Small c f
  | f => ∀ sn g1 g2 g3 v sn', negpush true (close c f) = some g1 → mini g1 = some g2 → skol [] 0 sn g2 = some (g3, v, sn') → v ≤ 999

theorem TwoArg.args2 {f : Frm} (h : TwoArg f) : Args2 f := by
  induction h with
  | «at» => trivial
  | neg _ ih => exact ih
  | par _ ih => exact ih
  | and _ _ a b => exact ⟨by simp, a, b, trivial⟩
  | or _ _ a b => exact ⟨by simp, a, b, trivial⟩
  | imp _ _ a b => exact ⟨by simp, a, b, trivial⟩
  | eqv _ _ a b => exact ⟨a, b⟩
  | all _ _ ih => exact ih
  | ex _ _ ih => exact ih

/-- a formula passes: it is turned into clauses, and these are built -/
def Passes (c : VarCfg) (strat : Bool) (sn nr : Nat) (f : Frm) : Prop :=
  ∃ n0 g sn' nr' cs, (∀ fuel, n0 ≤ fuel → clausify c strat fuel sn nr f = some (g, sn', nr')) ∧ flat g = some cs ∧
    ∀ fc ∈ cs, ∃ ls, buildCl c fc = some ls

theorem steps_total {c : VarCfg} {strat : Bool} {sn nr : Nat} {f : Frm} {sg : Const → SRole} (hF : Fresh sn nr sg) (ha : Adm c sg f)
    (hcl : ∀ n, freeIn n f → isVar c n = false)
    (hv : ∀ g1 g2 g3 v sn', negpush true f = some g1 → mini g1 = some g2 → skol [] 0 sn g2 = some (g3, v, sn') → v ≤ 999) :
    ∃ n0 g sn' nr' cs, (∀ fuel, n0 ≤ fuel → clausifySteps strat fuel sn nr f = some (g, sn', nr')) ∧ flat g = some cs ∧
      ∀ fc ∈ cs, ∃ ls, buildCl c fc = some ls := by
  obtain ⟨f1, e1⟩ := C26_negpush_accepts true f ha.two.args2
  have a1 := ha.negpush hcl e1
  obtain ⟨f2, e2⟩ := C27_miniscope_total f1 a1.nnf
  obtain ⟨a2, _⟩ := a1.mini e2
  have hd : ∀ n, headIn n f2 → ¬ boundIn n f2 := fun n hn hb => by
    have := (a2.wt.head hn).2
    rw [a2.bound n hb] at this
    cases this
  obtain ⟨f3, v, sn', e3⟩ := C28_skolem_accepts 0 sn a2.nnf (fun n hb => isVar_okVar (a2.bound n hb)) hd
  have hv := hv f1 f2 f3 v sn' e1 e2 e3
  have si : SkInput sn f2 := by
    refine ⟨fun n hn ht => ?_, hd, fun n k hn hk e => ?_⟩
    · have := a2.closed n hn
      rw [isVar_14 c ht] at this
      cases this
    · subst e
      rcases hn with hn | hn
      · exact ((a2.wt.off hF hn (isVar_skName c k)).2 (skName k).str (.inl ⟨k, hk, rfl⟩)).2.2 rfl
      · have := a2.bound _ hn
        rw [isVar_skName] at this
        cases this
  obtain ⟨q3, _⟩ := C28_skolem_equisatisfiable_partial a2.nnf si e3
  have v3 : ∀ n, freeIn n f3 → isVar c n = true → n ∈ (List.range v).map (fun k => newVar (k + 1)) := by
    intro n hn hv
    rcases C28_skolem_names a2.nnf si e3 hn with h | ⟨k, rfl, h⟩ | ⟨k, rfl, _⟩
    · rw [a2.closed n h.1] at hv
      cases hv
    · exact List.mem_map.2 ⟨k - 1, List.mem_range.2 (by omega), by rw [show k - 1 + 1 = k by omega]⟩
    · rw [isVar_skName] at hv
      cases hv
  obtain ⟨g4, s4, n0, e4⟩ := C29_distribution_ends strat false q3 (L := (List.range v).map (fun k => newVar (k + 1))) (by simpa using hv)
    (fun n hn ht => v3 n hn (isVar_14 c ht)) ⟨none, nr⟩
  have run : ∀ fuel, n0 ≤ fuel → clausifySteps strat fuel sn nr f = some (withDefs g4 s4, sn', s4.nr) := by
    intro fuel hf
    simp only [clausifySteps, e1, e2, e3, e4 fuel hf, Option.bind_some, Option.map_some]
  obtain ⟨sg3, l3, x3, F3, w3⟩ := skol_wt a2.nnf [] 0 sn f3 v sn' sg si.fok (fun n t e => by simp [look_nil] at e) hF a2.wt e3
  have fr : ∀ n k, freeIn n f3 → nr < k → n ≠ dfName k := by
    intro n k hn hk e
    subst e
    exact ((w3.off F3 hn (isVar_dfName c k)).2 (dfName k).str (.inr ⟨k, hk, rfl⟩)).2.2 rfl
  obtain ⟨_, _, nm4, _⟩ := C29_distribute_equisatisfiable_partial q3 fr (e4 n0 (Nat.le_refl _))
  obtain ⟨sg', _, _, _, _, cn, w, _⟩ := steps_ok hF ha hcl (run n0 (Nat.le_refl _))
  obtain ⟨cs, ef, hl, _⟩ := C29_flatten_equivalent cn
  refine ⟨n0, _, sn', _, cs, run, ef, fun fc hfc => ?_⟩
  have wl := (flat_true (D := Unit) cn w ef).1 fc hfc
  cases fc with
  | tru => exact buildCl_tru c
  | lits ls =>
    refine buildLs_total (L := ((List.range v).map (fun k => newVar (k + 1))).map Nm.str) (by simp; omega) ls [] wl ?_ List.nodup_nil (by simp)
    intro l hm n hn hvn
    have hn' := (hl ls hfc l hm).2 n hn
    rcases nm4 n hn' with h | ⟨k, ⟨_, _, rfl⟩ | ⟨_, rfl⟩⟩
    · exact List.mem_map.2 ⟨n, v3 n h hvn, rfl⟩
    · rw [isVar_dfName] at hvn; cases hvn
    · rw [isVar_dfName] at hvn; cases hvn

theorem clausify_total {c : VarCfg} {strat : Bool} {sn nr : Nat} {sg : Const → SRole} (hF : Fresh sn nr sg) : ∀ {f : Frm},
    Adm c sg f → Small c f → Passes c strat sn nr f := by
  have gen : ∀ {f : Frm}, Adm c sg f → (∀ fuel, clausify c strat fuel sn nr f = clausifySteps strat fuel sn nr (close c f)) →
      (∀ sn g1 g2 g3 v sn', negpush true (close c f) = some g1 → mini g1 = some g2 → skol [] 0 sn g2 = some (g3, v, sn') → v ≤ 999) →
      Passes c strat sn nr f := by
    intro f ha hc hs
    obtain ⟨n0, g, sn', nr', cs, h, r⟩ := steps_total (strat := strat) hF ha.close.1 ha.close.2 (hs sn)
    exact ⟨n0, g, sn', nr', cs, fun fuel hf => (hc fuel).trans (h fuel hf), r⟩
  intro f
  induction f using Frm.rec (motive_2 := fun _ => True) with
  | «at» t =>
    intro ha ⟨L, hL, hv⟩
    refine ⟨0, .at t, sn, nr, [.lits [.at t]], fun _ _ => rfl, by simp [flat, flatOr], fun fc hfc => ?_⟩
    rw [List.mem_singleton.1 hfc]
    exact buildLs_total hL _ [] (fun l hl => by rw [List.mem_singleton.1 hl]; exact ⟨.at t, ha.wt⟩)
      (fun l hl => by rw [List.mem_singleton.1 hl]; exact hv) List.nodup_nil (by simp)
  | par f ih =>
    intro ha ⟨h0, hs⟩
    have two : TwoArg f := by cases ha.two; assumption
    obtain ⟨n0, g, sn', nr', cs, h, r⟩ := ih ⟨two, ha.bound, ha.names, ha.wt⟩ hs
    exact ⟨n0, g, sn', nr', cs, fun fuel hf => by simp only [clausify, h0, List.isEmpty_nil, if_true]; exact h fuel hf, r⟩
  | neg f _ => exact fun ha hs => gen ha (fun _ => rfl) hs
  | and f _ => exact fun ha hs => gen ha (fun _ => rfl) hs
  | or f _ => exact fun ha hs => gen ha (fun _ => rfl) hs
  | imp f _ => exact fun ha hs => gen ha (fun _ => rfl) hs
  | eqv a b _ _ => exact fun ha hs => gen ha (fun _ => rfl) hs
  | all vs f _ => exact fun ha hs => gen ha (fun _ => rfl) hs
  | ex vs f _ => exact fun ha hs => gen ha (fun _ => rfl) hs
  | nil => trivial
  | cons _ _ _ _ => trivial

/-- C41.  Every problem whose formulas are admissible and not too big is accepted as a whole; with
enough depth the clauses do not depend on it. -/
theorem C41_problem_accepted {c : VarCfg} (strat : Bool) : ∀ {items : List Item} {sn nr : Nat} (sg : Const → SRole), Fresh sn nr sg →
    (∀ it ∈ items, Adm c sg it.frm ∧ Small c it.prepared) →
    ∃ n0 fcs lss, (∀ fuel, n0 ≤ fuel → clausifyAll c strat fuel sn nr items = some fcs) ∧ buildAll c fcs = some lss
  | [], sn, nr, sg, _, _ => ⟨0, [], [], fun _ _ => rfl, rfl⟩
  | it :: its, sn, nr, sg, hF, ha => by
    obtain ⟨n0, g, sn', nr', cs, h, ef, hb⟩ := clausify_total (strat := strat) hF (ha it (by simp)).1.prepared (ha it (by simp)).2
    obtain ⟨sg1, _, _, x1, F1, _⟩ := clausify_ok hF (ha it (by simp)).1.prepared (h n0 (Nat.le_refl _))
    obtain ⟨n1, ds, dss, h1, hb1⟩ := C41_problem_accepted strat (items := its) sg1 F1
      (fun it hm => ⟨(ha it (by simp [hm])).1.mono hF x1, (ha it (by simp [hm])).2⟩)
    have all : ∀ fc ∈ cs ++ ds, ∃ ls, buildCl c fc = some ls := fun fc hm => (List.mem_append.1 hm).elim (hb fc)
      (fun hm => let ⟨ls, _, e⟩ := (buildAll_mem hb1).1 fc hm; ⟨ls, e⟩)
    obtain ⟨lss, e⟩ := buildAll_total all
    refine ⟨max n0 n1, cs ++ ds, lss, fun fuel hf => ?_, e⟩
    simp only [clausifyAll, h fuel (by omega), ef, h1 fuel (by omega), Option.bind_some, Option.map_some]

/-! ### Cases -/

theorem exAll : clausifyAll exVar true 9 0 0 exItems = some exFcs := by
  have l1 : ∀ t, flat (.at t) = some [.lits [.at t]] := fun t => by simp [flat, flatOr]
  have l2 : ∀ t, flat (.neg (.at t)) = some [.lits [.neg (.at t)]] := fun t => by simp [flat, flatOr]
  have a : clausify exVar true 9 0 0 (.at (exP "p" "a")) = some (.at (exP "p" "a"), 0, 0) := rfl
  have b : clausify exVar true 9 0 0 (.all [uri "X"] (.or [.at (exP "q" "X"), .neg (.at (exP "p" "X"))])) =
    some (.or [.neg (.at (.app (uri "p") [.nm ⟨14, "X1"⟩])), .at (.app (uri "q") [.nm ⟨14, "X1"⟩])], 0, 0) := by rfl
  have d : clausify exVar true 9 0 0 (.neg (.at (exP "q" "a"))) = some (.neg (.at (exP "q" "a")), 0, 0) := by rfl
  have l3 : flat (.or [.neg (.at (.app (uri "p") [.nm ⟨14, "X1"⟩])), .at (.app (uri "q") [.nm ⟨14, "X1"⟩])]) =
    some [.lits [.neg (.at (.app (uri "p") [.nm ⟨14, "X1"⟩])), .at (.app (uri "q") [.nm ⟨14, "X1"⟩])]] := by simp [flat, flatOr, truthOf]
  simp only [exItems, clausifyAll, Item.prepared, Bool.false_eq_true, if_false, if_true, a, b, d, l1, l2, l3, Option.bind_some, Option.map_some]
  rfl

/-- the clauses that are built -/
def exLss : List (List Gkc.Lit) :=
  [[⟨false, .app (.sym "p") [.const (.sym "a")]⟩], [⟨true, .app (.sym "p") [.var 0]⟩, ⟨false, .app (.sym "q") [.var 0]⟩],
   [⟨true, .app (.sym "q") [.const (.sym "a")]⟩]]

theorem exAllBuilt : buildAll exVar exFcs = some exLss := by rfl

theorem exFollows : Follows exVar (fun _ => True) exItems := by
  intro M _ _ _ _ hax
  refine ⟨_, .tail _ (.tail _ (.head _)), rfl, fun n => M.cst (symbolOf n), fun _ _ => rfl, ?_⟩
  have h1 := hax _ (.head _) rfl (fun n => M.cst (symbolOf n)) (fun _ _ => rfl)
  have h2 := hax _ (.tail _ (.head _)) rfl (fun n => M.cst (symbolOf n)) (fun _ _ => rfl)
    (fun n => if n = uri "X" then M.cst (symbolOf (uri "a")) else M.cst (symbolOf n)) (fun n hn => by
      have : n ≠ uri "X" := by simpa using hn
      simp [this])
  simp only [FInt.holds, FInt.holdsAny, exP, FInt.atom, FInt.evL, FInt.ev, if_true, or_false] at h1 h2 ⊢
  exact h2.resolve_right (fun h => h h1)

/-- the conjecture follows, so the three clauses are contradictory, also in a domain with one element -/
example : Contra (fun _ => True) exLss :=
  C41_consequence_means_contradictory exSRole exFresh (by simp [exSRole]) (by simp [exSRole]) (by simp [exSRole]) exAdm exAll exAllBuilt
    _ (fun _ _ _ _ => trivial) exFollows

/-- the hypotheses of the second theorem are met too, and neither side is empty of content: without
the second axiom the conjecture does not follow -/
example : (Follows exVar (fun M => ∃ a b : M.D, a ≠ b) exItems ↔ Contra (fun M => ∃ a b : M.D, a ≠ b) exLss) ∧
    ¬ Contra (fun M => ∃ a b : M.D, a ≠ b) (exLss.eraseIdx 1) := by
  refine ⟨C41_consequence_iff_contradictory exSRole exFresh (by simp [exSRole]) (by simp [exSRole]) (by simp [exSRole]) exAdm exAll exAllBuilt,
    fun h => ?_⟩
  obtain ⟨ls, hl, bad⟩ := h ⟨Bool, fun k => decide (k = .sym "$true"), fun _ _ => true, fun k ds => (k = .sym "=" ∧ ∃ a, ds = [a, a]) ∨
      k = .sym "p" ∨ (k = .sym "$pr" ∧ ds = [true])⟩ ⟨true, false, Bool.noConfusion⟩ (by
        intro a b
        constructor
        · rintro (⟨_, e, hc⟩ | h | ⟨h, _⟩)
          · have h1 : a = e := by injection hc
            have h2 : b = e := by injection hc with _ h; injection h
            rw [h1, h2]
          · simp at h
          · simp at h
        · rintro rfl; exact .inl ⟨rfl, a, rfl⟩) (by simp) (by simp)
  refine bad fun ρ => ?_
  simp only [exLss, List.eraseIdx, List.mem_cons, List.not_mem_nil, or_false] at hl
  rcases hl with rfl | rfl
  · exact ⟨_, .head _, by simp [FO.atom]⟩
  · exact ⟨_, .head _, by simp [FO.atom]⟩

/-- the formulas are small enough -/
example : ∃ n0 fcs lss, (∀ fuel, n0 ≤ fuel → clausifyAll exVar true fuel 0 0 exItems = some fcs) ∧ buildAll exVar fcs = some lss := by
  refine C41_problem_accepted true exSRole exFresh (fun it hm => ⟨exAdm it hm, ?_⟩)
  simp only [exItems, List.mem_cons, List.not_mem_nil, or_false] at hm
  rcases hm with rfl | rfl | rfl
  · exact ⟨[], by simp, fun n hn hv => by
      simp only [exP, namesT, namesTL, List.mem_cons, List.append_nil, List.not_mem_nil, or_false] at hn
      rcases hn with rfl | rfl <;> exact absurd hv (by decide)⟩
  · intro sn g1 g2 g3 v sn' e1 e2 e3
    have h1 : negpush true (close exVar (.all [uri "X"] (.or [.at (exP "q" "X"), .neg (.at (exP "p" "X"))]))) =
      some (.all [uri "X"] (.or [.neg (.at (exP "p" "X")), .at (exP "q" "X")])) := by rfl
    have h1' := Option.some.inj (h1.symm.trans e1)
    subst h1'
    have h2 : mini (.all [uri "X"] (.or [.neg (.at (exP "p" "X")), .at (exP "q" "X")])) =
      some (.all [uri "X"] (.or [.neg (.at (exP "p" "X")), .at (exP "q" "X")])) := by rfl
    have h2' := Option.some.inj (h2.symm.trans e2)
    subst h2'
    have h3 : skol [] 0 sn (.all [uri "X"] (.or [.neg (.at (exP "p" "X")), .at (exP "q" "X")])) =
      some (.or [.neg (.at (.app (uri "p") [.nm ⟨14, "X1"⟩])), .at (.app (uri "q") [.nm ⟨14, "X1"⟩])], 1, sn) := by rfl
    have h3' := Option.some.inj (h3.symm.trans e3)
    have : v = 1 := (Prod.mk.inj (Prod.mk.inj h3').2).1.symm
    omega
  · intro sn g1 g2 g3 v sn' e1 e2 e3
    have h1 : negpush true (close exVar (.neg (.at (exP "q" "a")))) = some (.neg (.at (exP "q" "a"))) := by rfl
    have h1' := Option.some.inj (h1.symm.trans e1)
    subst h1'
    have h2 : mini (.neg (.at (exP "q" "a"))) = some (.neg (.at (exP "q" "a"))) := by rfl
    have h2' := Option.some.inj (h2.symm.trans e2)
    subst h2'
    have h3 : skol [] 0 sn (.neg (.at (exP "q" "a"))) = some (.neg (.at (exP "q" "a")), 0, sn) := by rfl
    have h3' := Option.some.inj (h3.symm.trans e3)
    have : v = 0 := (Prod.mk.inj (Prod.mk.inj h3').2).1.symm
    omega

end Gkc.Props
