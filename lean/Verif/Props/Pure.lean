import Verif.Props.Saturate
/-
Signs of predicates in derived clauses: a predicate that has only one sign in the input has only that
sign in all clauses of a run.  Used for C50.
-/
namespace Gkc.Props
open Gkc
open Gkc.Term (vars varsL)

/-- the symbol of a compound atom -/
def hdApp : Term → Option Const
  | .app f _ => some f
  | _ => none

/-- every literal of `ms` with the symbol `p` has one of `ls` with that symbol and the same sign -/
def From (p : Const) (ls ms : List Lit) : Prop :=
  ∀ l ∈ ms, hdApp l.atom = some p → ∃ k ∈ ls, k.neg = l.neg ∧ hdApp k.atom = some p

theorem From.refl (p : Const) (ls : List Lit) : From p ls ls := fun l hl h => ⟨l, hl, rfl, h⟩

theorem From.trans {p : Const} {a b c : List Lit} (h1 : From p a b) (h2 : From p b c) : From p a c := by
  intro l hl h
  obtain ⟨k, hk, e, h⟩ := h2 l hl h
  obtain ⟨m, hm, e', h⟩ := h1 k hk h
  exact ⟨m, hm, e'.trans e, h⟩

theorem From.sub {p : Const} {a b : List Lit} (h : ∀ l ∈ b, l ∈ a) : From p a b := fun l hl e => ⟨l, h l hl, rfl, e⟩

theorem hdApp_subst {sg : Const → Role} {θ : Nat → Term} {t : Term} (hw : WtAtom sg t) {p : Const}
    (h : hdApp (Term.subst θ t) = some p) : hdApp t = some p := by
  cases t with
  | var v => exact hw.elim
  | const c => simp [Term.subst, hdApp] at h
  | app f as => simpa [Term.subst, hdApp] using h

theorem hdApp_norm {sg : Const → Role} {ev : Term → Option Term} (he : EvRole sg ev) {t t' : Term} (hn : norm ev t = some t')
    (hw : WtAtom sg t) {p : Const} (h : hdApp t' = some p) : hdApp t = some p := by
  cases t with
  | var v => exact hw.elim
  | const c =>
    simp only [norm, Option.some.injEq] at hn
    subst hn
    exact h
  | app q as =>
    simp only [norm] at hn
    split at hn
    · cases hn
    · rename_i as' e
      have h1 := normL_wt (fun t _ t' => norm_wt he t') e hw.2.1
      rcases he.atom q as' t' ⟨hw.1, h1.1, fun hp => by rw [h1.2]; exact hw.2.2 hp⟩ hn with rfl | rfl | ⟨bs, rfl, _⟩
      · simp [hdApp] at h
      · simp [hdApp] at h
      · exact h

theorem from_subst {sg : Const → Role} {p : Const} {ls : List Lit} (hw : ∀ l ∈ ls, WtAtom sg l.atom) (θ : Nat → Term) :
    From p ls (ls.map (Lit.subst θ)) := by
  intro l hl h
  obtain ⟨k, hk, rfl⟩ := List.mem_map.1 hl
  exact ⟨k, hk, rfl, hdApp_subst (hw k hk) h⟩

theorem built_from {sg : Const → Role} {ev : Term → Option Term} (he : EvRole sg ev) {p : Const} {bank : Nat} {names : List Nat}
    {Ls Ns : List Lit} (h : Built ev bank names Ls Ns) (hw : ∀ l ∈ Ls, WtAtom sg l.atom) : From p Ls Ns := by
  induction h with
  | nil => exact .refl _ _
  | @cons l l' ls ls' h _ ih =>
    obtain ⟨h1, h2, _⟩ := h
    intro k hk hd
    rcases List.mem_cons.1 hk with rfl | hk
    · exact ⟨l, by simp, h1.symm, hdApp_subst (hw l (by simp)) (hdApp_norm he h2 (renT_wt (hw l (by simp))) hd)⟩
    · obtain ⟨m, hm, e⟩ := ih (fun l hl => hw l (by simp [hl])) k hk hd
      exact ⟨m, by simp [hm], e⟩

theorem collected_from {sg : Const → Role} {ev : Term → Option Term} (he : EvRole sg ev) {p : Const} {bank : Nat}
    {Ls rs : List Lit} (h : Collected ev bank Ls rs) (hw : ∀ l ∈ Ls, WtAtom sg l.atom) : From p Ls rs := by
  obtain ⟨names, Ns, _, hl, hB, hM⟩ := h.shape
  exact (built_from he hB hw).trans (.sub fun l hr => (hM.only l hr).resolve_left (by simp))

theorem builtBy_from {sg : Const → Role} {ev : Term → Option Term} (he : EvRole sg ev) {p : Const} {μ : Nat → Term} {cl : List ALit}
    {Ns : List Lit} (h : BuiltBy ev μ cl Ns) (hw : WtA sg cl) (hμ : ∀ v, WtT sg (μ v)) : From p (plain cl) Ns := by
  induction h with
  | nil => exact .refl _ _
  | @cons l l' ls ls' hn ha _ ih =>
    intro k hk hd
    rcases List.mem_cons.1 hk with rfl | hk
    · have hl := hw l (by simp)
      exact ⟨l.lit, by simp [plain, ALit.lit], hn.symm, hdApp_subst hl (hdApp_norm he ha (hl.subst (fun v _ => hμ v)) hd)⟩
    · obtain ⟨m, hm, e⟩ := ih (fun l hl => hw l (by simp [hl])) k hk hd
      exact ⟨m, by simp [plain] at hm ⊢; exact .inr hm, e⟩

theorem others_from {sg : Const → Role} {p : Const} {cl : List ALit} (h : WtA sg cl) {a : Nat} (θ : Nat → Term) :
    From p (plain cl) ((others a cl).map (Lit.subst θ)) := by
  intro l hl hd
  obtain ⟨k, hk, rfl⟩ := List.mem_map.1 hl
  simp only [others, List.mem_map, List.mem_filter] at hk
  obtain ⟨x, ⟨hx, _⟩, rfl⟩ := hk
  exact ⟨x.lit, mem_plain hx, rfl, hdApp_subst (h x hx) hd⟩

theorem From.append {p : Const} {a b c d : List Lit} (h1 : From p a c) (h2 : From p b d) : From p (a ++ b) (c ++ d) := by
  intro l hl h
  rcases List.mem_append.1 hl with hl | hl
  · obtain ⟨k, hk, e⟩ := h1 l hl h
    exact ⟨k, by simp [hk], e⟩
  · obtain ⟨k, hk, e⟩ := h2 l hl h
    exact ⟨k, by simp [hk], e⟩

theorem resolveInf_from {sg : Const → Role} {ev : Term → Option Term} (he : EvRole sg ev) {p : Const} {n : Nat} {xcl ycl : List ALit} {i j : Nat}
    (hx : Stored xcl) (hy : Stored ycl) (wx : WtA sg xcl) (wy : WtA sg ycl) {r : List Lit}
    (h : resolveInf ev n xcl i ycl j = .ok r) : From p (plain xcl ++ plain ycl) r := by
  simp only [resolveInf] at h
  split at h
  · rename_i x y ex ey
    have mx := List.mem_of_getElem? ex
    have my := List.mem_of_getElem? ey
    split at h
    · cases h
    · split at h
      · cases h
      · cases h
      · rename_i st eu
        obtain ⟨θ, hd, _, _⟩ := unify_den eu (hx.vars x mx) (hy.vars y my)
        have hθ := den_wt hd (unify_acyclic eu) (unify_atoms_wt (wx x mx) (wy y my) eu)
        obtain ⟨s, hr⟩ := Asm.inf_ok h
        have hc := resolveLits_spec hd mx my hx.vars hy.vars hr
        rw [List.map_append] at hc
        refine ((others_from wx θ).append (others_from wy θ)).trans (collected_from he hc ?_)
        intro l hl
        rcases List.mem_append.1 hl with hl | hl
        · exact others_wt wx hθ l hl
        · exact others_wt wy hθ l hl
  · cases h

theorem factorInf_from {sg : Const → Role} {ev : Term → Option Term} (he : EvRole sg ev) {p : Const} {n : Nat} {xcl : List ALit} {i j : Nat}
    (hx : Stored xcl) (wx : WtA sg xcl) {r : List Lit} (h : factorInf ev n xcl i j = .ok r) : From p (plain xcl) r := by
  simp only [factorInf] at h
  split at h
  · split at h
    · rename_i x y ex ey
      have mx := List.mem_of_getElem? ex
      have my := List.mem_of_getElem? ey
      split at h
      · cases h
      · split at h
        · split at h
          · cases h
          · cases h
          · rename_i st eu
            obtain ⟨θ, hd, _, _⟩ := unify_den eu (hx.vars x mx) (hx.vars y my)
            have hθ := den_wt hd (unify_acyclic eu) (unify_atoms_wt (wx x mx) (wx y my) eu)
            obtain ⟨s, hr⟩ := Asm.inf_ok h
            exact (others_from wx θ).trans (collected_from he (factorLits_spec hd mx hx.vars hr) (others_wt wx hθ))
        · cases h
    · cases h
  · cases h

theorem eqReflInf_from {sg : Const → Role} {ev : Term → Option Term} (he : EvRole sg ev) {p : Const} {n : Nat} {xcl : List ALit} {i : Nat}
    (hx : Stored xcl) (wx : WtA sg xcl) {r : List Lit} (h : eqReflInf ev n xcl i = .ok r) : From p (plain xcl) r := by
  simp only [eqReflInf] at h
  split at h
  · rename_i x ex
    have mx := List.mem_of_getElem? ex
    split at h
    · cases h
    · split at h
      · cases h
      · rename_i a b ea
        obtain ⟨rest, hat⟩ := eqArgs_some ea
        split at h
        · cases h
        · cases h
        · rename_i st eu
          have hv := hx.vars x mx
          have hw := wx x mx
          rw [hat] at hv hw
          have hab := wtL_iff.1 hw.2.1
          obtain ⟨θ, hd, _, _⟩ := unify_den eu (fun w h => hv w (by simp [h])) (fun w h => hv w (by simp [h]))
          have hθ := den_wt hd (unify_acyclic eu)
            (Vals.unify wt_args _ _ _ _ _ _ vals_empty (hab a (by simp)) (hab b (by simp)) eu)
          obtain ⟨s, hr⟩ := Asm.inf_ok h
          exact (others_from wx θ).trans (collected_from he (factorLits_spec hd mx hx.vars hr) (others_wt wx hθ))
  · cases h

theorem setAtom_from {sg : Const → Role} {p : Const} {cl : List ALit} (h : WtA sg cl) {j : Nat} {y : ALit} (hy : cl[j]? = some y) {C : Ctx}
    {u t : Term} (hC : C ≠ .hole) (e : y.atom = C.fill u) (ha : WtAtom sg (C.fill t)) (θ : Nat → Term) :
    From p (plain cl) ((setAtom cl j y.neg (C.fill t)).map (Lit.subst θ)) := by
  intro l hl hd
  obtain ⟨k, hk, rfl⟩ := List.mem_map.1 hl
  simp only [setAtom, List.mem_append, List.mem_map, List.mem_cons] at hk
  rcases hk with ⟨x, hx, rfl⟩ | rfl | ⟨x, hx, rfl⟩
  · exact ⟨x.lit, mem_plain (List.mem_of_mem_take hx), rfl, hdApp_subst (h x (List.mem_of_mem_take hx)) hd⟩
  · refine ⟨y.lit, mem_plain (List.mem_of_getElem? hy), rfl, ?_⟩
    have hd := hdApp_subst (t := C.fill t) ha hd
    show hdApp y.atom = some p
    rw [e]
    cases C with
    | hole => exact absurd rfl hC
    | app f pre c post => exact hd
  · exact ⟨x.lit, mem_plain (List.mem_of_mem_drop hx), rfl, hdApp_subst (h x (List.mem_of_mem_drop hx)) hd⟩

theorem paraFromInf_from {sg : Const → Role} {ev : Term → Option Term} (he : EvRole sg ev) {p : Const} {n : Nat} {xcl ycl : List ALit}
    {i j k : Nat} {left : Bool} (hx : Stored xcl) (hy : Stored ycl) (wx : WtA sg xcl) (wy : WtA sg ycl) {r : List Lit}
    (h : paraFromInf ev n xcl i left ycl j k = .ok r) : From p (plain xcl ++ plain ycl) r := by
  simp only [paraFromInf] at h
  split at h
  · rename_i x y ex ey
    have mx := List.mem_of_getElem? ex
    have my := List.mem_of_getElem? ey
    split at h
    · cases h
    · split at h
      · rename_i a b yt pos ea et
        obtain ⟨rest, hat⟩ := eqArgs_some ea
        obtain ⟨hj, _, hp, C, hC, rfl, hch⟩ := paraTargets_pos et
        split at h
        · cases h
        · cases h
        · rename_i st eu
          have hv := hx.vars x mx
          have hw := wx x mx
          rw [hat] at hv hw
          have hab := wtL_iff.1 hw.2.1
          have wa := hab a (by simp)
          have wb := hab b (by simp)
          have wc := wy y my
          rw [hC] at wc
          have wc := wtAtom_fill hch wc
          have hva : ∀ w ∈ vars a, w < 4000 := fun w h => hv w (by simp [h])
          have hvb : ∀ w ∈ vars b, w < 4000 := fun w h => hv w (by simp [h])
          have hvy : ∀ w ∈ vars yt, w < 4000 := fun w h => hy.vars y my w (by rw [hC]; exact vars_fill h)
          obtain ⟨θ, hd, _, _⟩ := unify_den eu (by cases left <;> assumption) hvy
          have hθ := den_wt hd (unify_acyclic eu)
            (Vals.unify wt_args _ _ _ _ _ _ vals_empty (by cases left <;> assumption) wc.1 eu)
          obtain ⟨s, hr⟩ := Asm.inf_ok h
          have hc := paraLits_spec hd mx hx.vars hy.vars hj ey hC hp (by cases left <;> assumption) hr
          rw [List.map_append] at hc
          have hwa := wc.2 _ (show WtT sg (if left then b else a) by cases left <;> assumption)
          refine ((others_from wx θ).append (setAtom_from wy ey hch hC hwa θ)).trans (collected_from he hc ?_)
          intro l hl
          rcases List.mem_append.1 hl with hl | hl
          · exact others_wt wx hθ l hl
          · exact setAtom_wt wy hwa hθ l hl
      · cases h
  · cases h

theorem paraIntoInf_from {sg : Const → Role} {ev : Term → Option Term} (he : EvRole sg ev) {p : Const} {n : Nat} {xcl ycl : List ALit}
    {i j k : Nat} {left : Bool} (hi : i ≤ 255) (hx : Stored xcl) (hy : Stored ycl) (wx : WtA sg xcl) (wy : WtA sg ycl) {r : List Lit}
    (h : paraIntoInf ev n xcl i left ycl j k = .ok r) : From p (plain xcl ++ plain ycl) r := by
  simp only [paraIntoInf] at h
  split at h
  · rename_i x y ex ey
    have mx := List.mem_of_getElem? ex
    have my := List.mem_of_getElem? ey
    split at h
    · cases h
    · split at h
      · rename_i a b yt pos ea et
        obtain ⟨rest, hat⟩ := eqArgs_some ea
        obtain ⟨hj, _, hp, C, hC, rfl, hch⟩ := paraTargets_pos et
        split at h
        · cases h
        · cases h
        · rename_i st eu
          have hv := hx.vars x mx
          have hw := wx x mx
          rw [hat] at hv hw
          have hab := wtL_iff.1 hw.2.1
          have wa := hab a (by simp)
          have wb := hab b (by simp)
          have wc := wy y my
          rw [hC] at wc
          have wc := wtAtom_fill hch wc
          have hva : ∀ w ∈ vars a, w < 4000 := fun w h => hv w (by simp [h])
          have hvb : ∀ w ∈ vars b, w < 4000 := fun w h => hv w (by simp [h])
          have hvy : ∀ w ∈ vars yt, w < 4000 := fun w h => hy.vars y my w (by rw [hC]; exact vars_fill h)
          obtain ⟨θ, hd, _, _⟩ := unify_den eu hvy (by cases left <;> assumption)
          have hθ := den_wt hd (unify_acyclic eu)
            (Vals.unify wt_args _ _ _ _ _ _ vals_empty wc.1 (by cases left <;> assumption) eu)
          have e1 : decLitnr (encPath i (if left then 1 else 0)) = i := by
            rw [decLitnr_enc (by cases left <;> simp)]; exact Nat.mod_eq_of_lt (by omega)
          have e2 : decPos (encPath i (if left then 1 else 0)) = if left then 1 else 0 :=
            decPos_enc (by cases left <;> simp)
          rw [e1, e2, ex] at h
          simp only [hat] at h
          have e3 : (if (if left then 1 else 0) ≠ 0 then b else a) = (if left then b else a) := by
            cases left <;> simp
          rw [e3] at h
          obtain ⟨s, hr⟩ := Asm.inf_ok h
          have hc := paraLits_spec hd mx hx.vars hy.vars hj ey hC hp (by cases left <;> assumption) hr
          rw [List.map_append] at hc
          have hwa := wc.2 _ (show WtT sg (if left then b else a) by cases left <;> assumption)
          refine ((others_from wx θ).append (setAtom_from wy ey hch hC hwa θ)).trans (collected_from he hc ?_)
          intro l hl
          rcases List.mem_append.1 hl with hl | hl
          · exact others_wt wx hθ l hl
          · exact setAtom_wt wy hwa hθ l hl
      · cases h
  · cases h

theorem instgen_from {st : St} (hl : Loose st) {ev : Term → Option Term} {n : Nat} {cl : List ALit}
    (hv : ∀ l ∈ cl, ∀ w ∈ vars l.atom, w < 4000) {r : List Lit} {s' : BSt} (h : instgenLits ev n st cl = .ok r s')
    {sg : Const → Role} (he : EvRole sg ev) (hst : AllVals (WtT sg) st) (hw : WtA sg cl) {p : Const} : From p (plain cl) r := by
  have h5 : ∀ l ∈ cl, ∀ w ∈ vars l.atom, w < 5000 := fun l hl w hw => by have := hv l hl w hw; omega
  obtain ⟨hl', hq, _⟩ := asmCl_loose (Q := WtT sg) (fun _ => trivial) _ _ _ _ _ _ hl h
  obtain ⟨μ, h1, h2, h3, θ, η, h4, h5', h6, h7⟩ := hl'.subst 3
  obtain ⟨Ns, hB, hM⟩ := asmCl_norm h2 _ _ _ _ _ _ hl h5 h h1
  have hθ : ∀ v, WtT sg (θ v) := by
    obtain ⟨rank, hk⟩ := hl'.acyc
    have key : ∀ k v, rank v < k → WtT sg (θ v) := by
      intro k
      induction k with
      | zero => intro v h; omega
      | succ k ih =>
        intro v hlt
        cases hb : s'.st.b v with
        | none => rw [h6 v hb]; trivial
        | some t =>
          rw [h5' v t hb]
          exact (hq hst v t hb).subst (fun w hw => ih w (by have := hk v w ⟨t, hb, hw⟩; omega))
    exact fun v => key _ v (Nat.lt_succ_self _)
  have hμ : ∀ v, WtT sg (μ v) := by
    intro v
    rw [h4]
    refine (hθ v).subst (fun w _ => ?_)
    obtain ⟨u, e⟩ := h7 w
    rw [e]; trivial
  exact (builtBy_from he hB hw hμ).trans (.sub fun l hr => (hM.only l hr).resolve_left (by simp))

theorem arith_from {c : Cfg} {sg : Const → Role} {I : Interp} (hr : Roles c sg) {x : List ALit} (hx : PCl I sg x)
    {n : Nat} {st : St} {r : List Lit} {s' : BSt} (hst : NumBound isNumber st)
    (h : asmCl c.ev 3 n none none 0 [] ⟨st, 0⟩ x = .ok r s') {p : Const} : From p (plain x) r := by
  let θ : Nat → Term := fun v => (st.b v).getD (.var v)
  have hθ : Den st.b θ := by
    refine ⟨?_, ?_, ?_⟩
    · intro v t e
      obtain ⟨_, k, _, rfl⟩ := hst v t e
      simp [θ, e]
    · intro v e; simp [θ, e]
    · intro v t e
      obtain ⟨h1, k, _, rfl⟩ := hst v t e
      exact ⟨h1, by simp⟩
  have hw : ∀ v, WtT sg (θ v) := by
    intro v
    cases e : st.b v with
    | none => simp [θ, e, WtT]
    | some t =>
      obtain ⟨_, k, hk, rfl⟩ := hst v t e
      simp only [θ, e, Option.getD_some, WtT]
      exact hr.num k hk
  obtain ⟨Ls, Ns, names, hP, hi, _, hB, hM, _⟩ := asmCl_spec hθ (fun _ _ _ e => by cases e) x 0 [] ⟨st, 0⟩ [] r s' BInv.init
    (fun l hl v hv => (hx.vars l hl v hv).1) h
  have hc : Collected c.ev 3 Ls r := ⟨names, Ns, hi.nodup, hi.le, hB, hM⟩
  have hL := picked_none hP
  subst hL
  have hp : ∀ l ∈ plain x, WtAtom sg l.atom := by
    intro l hl
    obtain ⟨m, hm, rfl⟩ := List.mem_map.1 hl
    exact hx.wt m hm
  refine (from_subst hp θ).trans (collected_from hr.ev hc ?_)
  intro l hl
  obtain ⟨k, hk, rfl⟩ := List.mem_map.1 hl
  exact (hp k hk).subst (fun v _ => hw v)

/-- every compound literal of an inferred clause has one with its symbol and sign in a kept clause -/
theorem infer_from {c : Cfg} {sg : Const → Role} {I : Interp} (hr : Roles c sg) {s : PState} (hs : SInv I sg s)
    (hl : ∀ cl ∈ s.active, cl.length ≤ 256) {r : List Lit} (h : Infer c s r) {p : Const} {l : Lit} (hm : l ∈ r)
    (hd : hdApp l.atom = some p) : ∃ cl, s.Kept cl ∧ ∃ k ∈ plain cl, k.neg = l.neg ∧ hdApp k.atom = some p := by
  have two : ∀ {x y : List ALit}, s.Kept x → s.Kept y → From p (plain x ++ plain y) r →
      ∃ cl, s.Kept cl ∧ ∃ k ∈ plain cl, k.neg = l.neg ∧ hdApp k.atom = some p := by
    intro x y hx hy hf
    obtain ⟨k, hk, e⟩ := hf l hm hd
    rcases List.mem_append.1 hk with hk | hk
    · exact ⟨x, hx, k, hk, e⟩
    · exact ⟨y, hy, k, hk, e⟩
  have one : ∀ {x : List ALit}, s.Kept x → From p (plain x) r →
      ∃ cl, s.Kept cl ∧ ∃ k ∈ plain cl, k.neg = l.neg ∧ hdApp k.atom = some p :=
    fun hx hf => ⟨_, hx, hf l hm hd⟩
  cases h with
  | resolve hx hy h =>
    have gx := hs.given _ hx
    have gy := hs.active _ hy
    exact two (.given hx) (.active hy) (resolveInf_from hr.ev (gx.stored (by omega)) (gy.stored (by omega)) gx.wt gy.wt h)
  | factor hx h =>
    have gx := hs.given _ hx
    exact one (.given hx) (factorInf_from hr.ev (gx.stored (by omega)) gx.wt h)
  | reflexive hx h =>
    have gx := hs.given _ hx
    exact one (.given hx) (eqReflInf_from hr.ev (gx.stored (by omega)) gx.wt h)
  | paraFrom hx hy h =>
    have gx := hs.given _ hx
    have gy := hs.active _ hy
    exact two (.given hx) (.active hy) (paraFromInf_from hr.ev (gx.stored (by omega)) (gy.stored (by omega)) gx.wt gy.wt h)
  | @paraInto x y n i j k left r hx hy h =>
    have gx := hs.given _ hx
    have gy := hs.active _ hy
    have hi : i ≤ 255 := by
      have := hl _ hy
      simp only [paraIntoInf] at h
      cases e : y[i]? with
      | none => rw [e] at h; simp at h
      | some q => have := (List.getElem?_eq_some_iff.1 e).1; omega
    exact two (.active hy) (.given hx) (paraIntoInf_from hr.ev hi (gy.stored (by omega)) (gx.stored (by omega)) gy.wt gx.wt h)
  | @instgen x y cl xl yl n n' b st st' r s' hx hy hxl hyl hu hst hcl h =>
    have gx := hs.given _ hx
    have gy := hs.active _ hy
    have sx := gx.stored (by omega)
    have sy := gy.stored (by omega)
    have hl := leftOver_loose hst (Rng.unify (by intro v t hv; simp [St.empty] at hv) (sx.vars xl hxl) (sy.vars yl hyl) hu)
      (unify_acyclic hu)
    have hq : AllVals (WtT sg) st' := by
      intro v t e
      rcases hst v t e with e | ⟨_, k, _, rfl⟩
      · exact unify_atoms_wt (gx.wt xl hxl) (gy.wt yl hyl) hu v t e
      · trivial
    rcases hcl with rfl | rfl
    · exact one (.given hx) (instgen_from hl sx.vars h hr.ev hq gx.wt)
    · exact one (.active hy) (instgen_from hl sy.vars h hr.ev hq gy.wt)
  | arith hx hst h => exact one (.cur hx) (arith_from hr (hs.cur _ hx) hst h)

/-! ### Copies and simplification -/

theorem copyCl_from {sg : Const → Role} {ev : Term → Option Term} (he : EvRole sg ev) {bank n : Nat} {ls r : List Lit} {s' : BSt}
    (h : copyCl ev bank n St.empty ls = .ok r s') (hv : ∀ l ∈ ls, ∀ v ∈ vars l.atom, v < 4000)
    (hw : ∀ l ∈ ls, WtAtom sg l.atom) {p : Const} : From p ls r := by
  obtain ⟨h1, names, hi, _, hn, hvs, _⟩ := copyLits_spec den_empty n ls [] ⟨St.empty, 0⟩ r s' BInv.init hv h
  exact built_from he (built_of_normL h1 hn hvs) hw

theorem stores_from {sg : Const → Role} {bank : Nat} {r : List Lit} {cl : List ALit} (hs : Stores bank r cl)
    (hw : ∀ l ∈ r, WtAtom sg l.atom) (hv : ∀ l ∈ r, ∀ v ∈ vars l.atom, v < 4000) {p : Const} : From p r (plain cl) := by
  cases hs with
  | plain h => exact .sub fun l hl => by rw [← h.1]; exact hl
  | renamed n r' s' hc h =>
    exact (copyCl_from (EvRole.some sg) hc hv hw).trans (.sub fun l hl => by rw [← h.1]; exact hl)

theorem simpLoop_sign {rw' : ALit → Out (ALit × Bool)} {us : Units} {m : Term → Nat}
    {bucket : Bool → Term → List (Lit × Lit)} {xcl : List ALit} :
    ∀ {xs : List ALit} {rs r : List Lit} {found chg : Bool}, simpLoop rw' us m bucket xcl found chg rs xs = .ok r →
      ∀ l ∈ r, l ∈ rs ∨ ∃ x ∈ xs, ∃ y w, rw' x = .ok (y, w) ∧ l.atom = y.atom ∧ l.neg = x.neg := by
  intro xs
  induction xs with
  | nil =>
    intro rs r found chg h l hl
    simp only [simpLoop] at h
    split at h
    · simp only [SRes.ok.injEq] at h; rw [h]; exact .inl hl
    · cases h
  | cons x xs ih =>
    intro rs r found chg h l hl
    have lift : (l ∈ rs ∨ ∃ x ∈ xs, ∃ y w, rw' x = .ok (y, w) ∧ l.atom = y.atom ∧ l.neg = x.neg) →
        (l ∈ rs ∨ ∃ z ∈ x :: xs, ∃ y w, rw' z = .ok (y, w) ∧ l.atom = y.atom ∧ l.neg = z.neg) := by
      rintro (h | ⟨z, hz, h3⟩)
      · exact .inl h
      · exact .inr ⟨z, .tail _ hz, h3⟩
    simp only [simpLoop] at h
    split at h
    · cases h
    · cases h
    · rename_i y w e
      split at h
      · split at h
        · exact lift (ih h l hl)
        · cases h
      · split at h
        · split at h
          · cases h
          · exact lift (ih h l hl)
        · split at h
          · cases h
          · split at h
            · exact lift (ih h l hl)
            · split at h
              · exact lift (ih h l hl)
              · rcases ih h l hl with hm | hm
                · rcases List.mem_append.1 hm with hm | hm
                  · exact .inl hm
                  · rw [List.mem_singleton] at hm
                    subst hm
                    exact .inr ⟨x, by simp, y, w, e, rfl, rfl⟩
                · exact lift (.inr hm)

/-- rewriting keeps the symbol of an atom that is not evaluated -/
theorem rwBuild_head {I : Interp} (hI : EqInterp I) {sg : Const → Role} {wd : Const → Int} {eqs : List (Term × Term)}
    {ev : Term → Option Term} (h : Term → Nat) (ht : ∀ e ∈ eqs, EqTrue I e.1 e.2) (hw : WtEqs sg eqs) (hev : EvSound I ev)
    (he : EvRole sg ev) {x y : Term} {n k : Nat} (hx : WtAtom sg x) (hv : ∀ v ∈ vars x, ¬ InBank 2 v)
    (hr : rwBuild ev (bucketOf h (rulesOf wd eqs)) n x = .ok y k) {p : Const} (hd : hdApp y = some p) : hdApp x = some p := by
  obtain ⟨E, π, hπ, hc⟩ := id hI
  have rel := role_rel hI hπ hc h ht hw hev he (wd := wd)
  cases n with
  | zero => simp [rwBuild] at hr
  | succ n =>
    cases x with
    | var v => exact hx.elim
    | const c =>
      simp only [rwBuild] at hr
      have := rwConst_role hw (by rw [show sg c = .pred from hx]; decide) hr
      subst this
      simp [hdApp] at hd
    | app q as =>
      simp only [rwBuild] at hr
      obtain ⟨f', i, j, h1, h2, _⟩ := ROut.bind_ok hr
      obtain ⟨as', i2, j2, h3, h4, _⟩ := ROut.bind_ok h2
      have := rwConst_role hw (by rw [hx.1]; decide) h1
      subst this
      simp only at h4
      have hga : ∀ a ∈ as, (∀ v ∈ vars a, ¬ InBank 2 v) ∧ WtT sg a := fun a ha =>
        ⟨fun v hva => hv v (by rw [Term.vars_app, Term.mem_varsL]; exact ⟨a, ha, hva⟩), wtL_iff.1 hx.2.1 a ha⟩
      have hq : All2 (fun _ b => WtT sg b) as as' :=
        (mapR_ok h3).imp (fun a ha b ⟨j, hb⟩ => ((rw_rel rel n).1 _ _ _ hb (hga a ha)).1.2)
      have e2 : WtAtom sg (.app q as') := by
        refine ⟨hx.1, ?_, fun hp => by rw [← hq.length]; exact hx.2.2 hp⟩
        clear hc h4 h3 hga hx hr h2 hv
        induction hq with
        | nil => trivial
        | cons h _ ih => exact ⟨h, ih⟩
      split at h4
      · cases h4
      · rename_i r er
        split at h4
        · rename_i hb
          cases h4
          simp only [Bool.or_eq_true, Term.beq_iff] at hb
          rcases hb with rfl | rfl <;> simp [hdApp] at hd
        · rename_i hb
          rcases he.atom q as' r e2 er with rfl | rfl | ⟨bs, rfl, hbs⟩
          · simp [Term.beq] at hb
          · simp [Term.beq] at hb
          · cases n with
            | zero => simp [rwTerm] at h4
            | succ n =>
              simp only [rwTerm] at h4
              split at h4
              · cases h4; exact hd
              · cases h4
              · rename_i r s e
                obtain ⟨l, hm, hsm⟩ := findRule_spec e
                have hl := (matchT_sound l St.empty _ s hsm).2.1
                have hlw := (hw.side hm).1
                cases l with
                | var v =>
                  obtain ⟨_, h5 | ⟨_, h5⟩⟩ := rule_gt hw.eqs hm
                  · have := Term.size_pos r; simp at h5; omega
                  · cases r <;> simp [lexOrder] at h5
                    split at h5 <;> simp at h5
                | const c => simp at hl
                | app f ls =>
                  simp only [Term.subst_app, Term.app.injEq] at hl
                  have h6 := hlw.1
                  rw [hl.1, hbs.1] at h6
                  cases h6

/-! ### Runs -/

/-- no literal of the clause has the symbol `p` and the sign `b` -/
def Free (p : Const) (b : Bool) (cl : List Lit) : Prop := ∀ l ∈ cl, hdApp l.atom = some p → l.neg ≠ b

theorem Free.of {p : Const} {b : Bool} {a c : List Lit} (h : Free p b a) (hf : From p a c) : Free p b c := by
  intro l hl e
  obtain ⟨k, hk, e1, e2⟩ := hf l hl e
  exact e1 ▸ h k hk e2

theorem simplify_from {c : Cfg} {sg : Const → Role} {I : Interp} (hf : Fits c I) (hr : Roles c sg) {s : PState} (hs : SInv I sg s)
    {cl : List ALit} (hcl : PCl I sg cl) {rw' : ALit → Out (ALit × Bool)} (h : RwRun c s.eqs cl rw') {us m bucket r}
    (he : simplifyCl rw' us m bucket cl = .ok r) {p : Const} : From p (plain cl) r := by
  intro l hl hd
  obtain ⟨x, hx, y, w, e, ea, en⟩ := (simpLoop_sign he l hl).resolve_left (by simp)
  obtain ⟨n, k, e1⟩ := (h x hx y w e).1
  rw [ea] at hd
  exact ⟨x.lit, mem_plain hx, en.symm, rwBuild_head hf.eq c.h hs.eqs hs.eqsWt hf.ev hr.ev (hcl.wt x hx)
    (fun v hv => (hcl.vars x hx v hv).2) e1 hd⟩

theorem simplifyFact_from {c : Cfg} {sg : Const → Role} {I : Interp} (hf : Fits c I) (hr : Roles c sg) {s : PState} (hs : SInv I sg s)
    {x : ALit} (hx : x.neg = false) (hcl : PCl I sg [x]) {rw' : ALit → Out (ALit × Bool)} (h : RwRun c s.eqs [x] rw') {r}
    (he : simplifyFact rw' x = .ok r) {p : Const} : From p (plain [x]) r := by
  intro l hl hd
  unfold simplifyFact at he
  split at he
  · cases he
  · cases he
  · rename_i y w e
    split at he
    · cases he
    · split at he
      · simp only [SRes.ok.injEq] at he; rw [← he] at hl; cases hl
      · split at he
        · simp only [SRes.ok.injEq] at he
          rw [← he, List.mem_singleton] at hl
          subst hl
          obtain ⟨n, k, e1⟩ := (h x (by simp) y w e).1
          exact ⟨x.lit, mem_plain (by simp), hx, rwBuild_head hf.eq c.h hs.eqs hs.eqsWt hf.ev hr.ev (hcl.wt x (by simp))
            (fun v hv => (hcl.vars x (by simp) v hv).2) e1 hd⟩
        · cases he

/-- all kept clauses and answers are free of `p` with the sign `b` -/
structure SFree (p : Const) (b : Bool) (s : PState) : Prop where
  kept : ∀ cl, s.Kept cl → Free p b (plain cl)
  answers : ∀ cl ∈ s.answers, Free p b cl

theorem SFree.cur' {p : Const} {b : Bool} {s : PState} (h : SFree p b s) {x : Option (List ALit)}
    (hx : ∀ cl, x = some cl → Free p b (plain cl)) : SFree p b { s with cur := x } := by
  refine ⟨?_, h.answers⟩
  intro cl hk
  cases hk with
  | passive hk => exact h.kept _ (.passive hk)
  | cur hk => exact hx _ hk
  | given hk => exact h.kept _ (.given hk)
  | active hk => exact h.kept _ (.active hk)

theorem step_free {c : Cfg} {sg : Const → Role} {I : Interp} (hf : Fits c I) (hr : Roles c sg) {s t : PState} (hs : SInv I sg s)
    (hl : ∀ cl ∈ s.active, cl.length ≤ 256) {p : Const} {b : Bool} (hp : SFree p b s) (h : LStep c s t) : SFree p b t := by
  cases h with
  | @pick cl cl' h hpm =>
    refine ⟨?_, hp.answers⟩
    intro k hk
    cases hk with
    | passive hk => exact hp.kept _ (.passive hk)
    | cur hk =>
      simp only [Option.some.injEq] at hk
      subst hk
      exact (hp.kept _ (.passive h)).of (.sub fun l hl => (hpm.map _).mem_iff.1 hl)
    | given hk => simp at hk
    | active hk => exact hp.kept _ (.active hk)
  | simplifyEmpty h hu hrw he => exact ⟨fun cl hk => hp.kept cl (by cases hk <;> [exact .passive ‹_›; exact .cur ‹_›; exact .given ‹_›; exact .active ‹_›]), hp.answers⟩
  | simplify h hu hrw he hn hst =>
    obtain ⟨_, h2, h3⟩ := simplify_pcl hf hr hs (hs.cur _ h) hrw hu he
    refine hp.cur' ?_
    intro cl e
    simp only [Option.some.injEq] at e
    subst e
    exact (hp.kept _ (.cur h)).of ((simplify_from hf hr hs (hs.cur _ h) hrw he).trans
      (stores_from hst h2 (fun l hl v hv => (h3 l hl v hv).1)))
  | simplifyFactEmpty h hx hrw he => exact ⟨fun cl hk => hp.kept cl (by cases hk <;> [exact .passive ‹_›; exact .cur ‹_›; exact .given ‹_›; exact .active ‹_›]), hp.answers⟩
  | simplifyFact h hx hrw he hn hst =>
    obtain ⟨_, h2, h3⟩ := simplifyFact_pcl hf hr hs hx (hs.cur _ h) hrw he
    refine hp.cur' ?_
    intro cl e
    simp only [Option.some.injEq] at e
    subst e
    exact (hp.kept _ (.cur h)).of ((simplifyFact_from hf hr hs hx (hs.cur _ h) hrw he).trans
      (stores_from hst h2 (fun l hl v hv => (h3 l hl v hv).1)))
  | @activate cl g a n n' r r' s1 s2 h ht h1 hg h2 ha =>
    have hc := hs.cur _ h
    have w0 : ∀ l ∈ cl.map ALit.lit, WtAtom sg l.atom :=
      fun l hl => by obtain ⟨l', hl', rfl⟩ := List.mem_map.1 hl; exact hc.wt l' hl'
    have v0 : ∀ l ∈ cl.map ALit.lit, ∀ v ∈ vars l.atom, v < 4000 :=
      fun l hl v hv => by obtain ⟨l', hl', rfl⟩ := List.mem_map.1 hl; exact (hc.vars l' hl' v hv).1
    obtain ⟨c1, _⟩ := copyCl_spec hr.ev h1 v0 w0
    have f1 := (hp.kept _ (.cur h)).of (copyCl_from hr.ev h1 v0 w0)
    have f2 := f1.of (copyCl_from hr.ev h2 (fun l hl v hv => by have := ((c1.wt l hl).2 v hv).2; omega) (fun l hl => (c1.wt l hl).1))
    refine ⟨?_, hp.answers⟩
    intro k hk
    cases hk with
    | passive hk => exact hp.kept _ (.passive hk)
    | cur hk => exact hp.kept _ (.cur hk)
    | given hk =>
      simp only [Option.some.injEq] at hk
      subst hk
      exact f1.of (.sub fun l hl => by rw [← hg.1]; exact hl)
    | active hk =>
      rcases List.mem_cons.1 hk with rfl | hk
      · exact f2.of (.sub fun l hl => by rw [← ha.1]; exact hl)
      · exact hp.kept _ (.active hk)
  | deriveEmpty h hu hst htag hfi => exact ⟨fun cl hk => hp.kept cl (by cases hk <;> [exact .passive ‹_›; exact .cur ‹_›; exact .given ‹_›; exact .active ‹_›]), hp.answers⟩
  | @derive r r' us cands bucket fwd strong sdup n m tag st cl h hu hst htag hfi hn hsto =>
    have h1 := infer_sound hf hr hs hl h
    have h3 := finish_mem (NewCl.tagOk htag) hst hfi
    have fr : Free p b r := by
      intro l hm hd
      obtain ⟨cl, hk, k, hkm, e1, e2⟩ := infer_from hr hs hl h hm hd
      exact e1 ▸ hp.kept cl hk k hkm e2
    refine ⟨?_, hp.answers⟩
    intro k hk
    cases hk with
    | passive hk =>
      rcases List.mem_cons.1 hk with rfl | hk
      · exact (fr.of (.sub h3)).of (stores_from hsto (fun l hl => (h1.2 l (h3 l hl)).1)
          (fun l hl v hv => by have := (h1.2 l (h3 l hl)).2 v hv; have := this.2; omega))
      · exact hp.kept _ (.passive hk)
    | cur hk => exact hp.kept _ (.cur hk)
    | given hk => exact hp.kept _ (.given hk)
    | active hk => exact hp.kept _ (.active hk)
  | answer h ha =>
    refine ⟨fun cl hk => hp.kept cl (by cases hk <;> [exact .passive ‹_›; exact .cur ‹_›; exact .given ‹_›; exact .active ‹_›]), ?_⟩
    intro cl hm
    rcases List.mem_cons.1 hm with rfl | hm
    · exact hp.kept _ h
    · exact hp.answers cl hm
  | forget h1 h2 h3 h4 h5 h6 h7 h8 h9 h10 h11 h12 =>
    refine ⟨?_, h10 ▸ hp.answers⟩
    intro cl hk
    cases hk with
    | passive hk => exact hp.kept _ (.passive (h1 hk))
    | cur hk =>
      rcases h2 with h2 | h2
      · exact hp.kept _ (.cur (h2 ▸ hk))
      · rw [h2] at hk; cases hk
    | given hk =>
      rcases h3 with h3 | h3
      · exact hp.kept _ (.given (h3 ▸ hk))
      · rw [h3] at hk; cases hk
    | active hk => exact hp.kept _ (.active (h4 hk))
  | _ => exact ⟨fun cl hk => hp.kept cl (by cases hk <;> [exact .passive ‹_›; exact .cur ‹_›; exact .given ‹_›; exact .active ‹_›]), hp.answers⟩

/-- a predicate that does not have the sign `b` in the input does not have it in answers -/
theorem run_free {c : Cfg} {sg : Const → Role} {I : Interp} (hf : Fits c I) (hr : Roles c sg) {input : List (List ALit)}
    (hi : ∀ cl ∈ input, InputOk sg cl) (ht : ∀ cl ∈ input, ClTrue I (plain cl)) {p : Const} {b : Bool}
    (hp : ∀ cl ∈ input, Free p b (plain cl)) {s : PState} (h : Run c ShortActive input s) : SFree p b s := by
  induction h with
  | start h =>
    refine ⟨?_, by intro cl h; cases h⟩
    intro cl hk
    cases hk with
    | passive hk => exact hp cl hk
    | cur hk => cases hk
    | given hk => cases hk
    | active hk => cases hk
  | step hrn hs _ ih =>
    obtain ⟨h1, h2⟩ := run_inv hf hr hi ht hrn
    exact step_free hf hr h1 h2 ih hs

end Gkc.Props
