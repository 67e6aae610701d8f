import Verif.Props.Pure
/-
The evaluation matters only for terms and atoms in which symbols keep to their roles: two evaluations
that agree there have the same runs of the saturation loop.  Used for C58.
-/
namespace Gkc.Props
open Gkc Term

/-- the evaluations agree on terms and atoms that keep to the roles -/
def AgreeOn (sg : Const → Role) (ev ev' : Term → Option Term) : Prop := ∀ t, WtT sg t ∨ WtAtom sg t → ev t = ev' t

section
variable {sg : Const → Role} {ev ev' : Term → Option Term} (he : EvRole sg ev) (ha : AgreeOn sg ev ev')

/-! ### Building -/

/-- the builders agree, and what is built keeps to the roles -/
def Same (sg : Const → Role) (f g : BSt → Term → Out (Term × BSt)) (P R : Term → Prop) : Prop :=
  ∀ s x, Vals (WtT sg) s.st → P x → f s x = g s x ∧ ∀ r s', f s x = .ok (r, s') → R r ∧ Vals (WtT sg) s'.st

theorem buildL_same {f g : BSt → Term → Out (Term × BSt)} (h : Same sg f g (WtT sg) (WtT sg)) : ∀ as s, Vals (WtT sg) s.st →
    WtL sg as → Gkc.buildL f s as = Gkc.buildL g s as ∧ ∀ rs s', Gkc.buildL f s as = .ok (rs, s') → WtL sg rs ∧ Vals (WtT sg) s'.st ∧
      rs.length = as.length
  | [], s, hv, _ => ⟨rfl, fun rs s' e => by
      simp only [Gkc.buildL, Out.ok.injEq, Prod.mk.injEq] at e
      obtain ⟨rfl, rfl⟩ := e
      exact ⟨trivial, hv, rfl⟩⟩
  | a :: as, s, hv, hw => by
    obtain ⟨e1, k1⟩ := h s a hv hw.1
    simp only [Gkc.buildL, ← e1]
    cases e : f s a with
    | fuel => exact ⟨rfl, by simp⟩
    | illegal => exact ⟨rfl, by simp⟩
    | ok p =>
      obtain ⟨a', s1⟩ := p
      obtain ⟨w1, v1⟩ := k1 _ _ e
      obtain ⟨e2, k2⟩ := buildL_same h as s1 v1 hw.2
      simp only [← e2]
      refine ⟨trivial, ?_⟩
      cases e3 : Gkc.buildL f s1 as with
      | fuel => simp
      | illegal => simp
      | ok q =>
        obtain ⟨as', s2⟩ := q
        intro rs s' e4
        simp only [Out.ok.injEq, Prod.mk.injEq] at e4
        obtain ⟨rfl, rfl⟩ := e4
        obtain ⟨w2, v2, l2⟩ := k2 _ _ e3
        exact ⟨⟨w1, w2⟩, v2, by simp [l2]⟩

theorem renameVar_vals {bank : Nat} {s : BSt} {v : Nat} (hv : Vals (WtT sg) s.st) {r s'} (h : renameVar bank s v = .ok (r, s')) :
    WtT sg r ∧ Vals (WtT sg) s'.st := by
  unfold renameVar at h
  split at h
  · split at h
    · cases h
    · simp only [Out.ok.injEq, Prod.mk.injEq] at h
      obtain ⟨rfl, rfl⟩ := h
      exact ⟨trivial, hv.set trivial⟩
  · simp only [Out.ok.injEq, Prod.mk.injEq] at h
    obtain ⟨rfl, rfl⟩ := h
    exact ⟨trivial, hv⟩

include he ha in
theorem build_same (bank : Nat) : ∀ n, Same sg (build ev bank n) (build ev' bank n) (WtT sg) (WtT sg)
  | 0 => fun s x _ _ => ⟨rfl, by simp [build]⟩
  | n + 1 => fun s x hv hx => by
    simp only [build]
    cases e : walk s.st.b (n + 1) x with
    | none => exact ⟨rfl, by simp⟩
    | some y =>
      have hy := hv.walk e hx
      cases y with
      | const c =>
        refine ⟨rfl, fun r s' h => ?_⟩
        simp only [Out.ok.injEq, Prod.mk.injEq] at h
        obtain ⟨rfl, rfl⟩ := h
        exact ⟨hy, hv⟩
      | var v => exact ⟨rfl, fun r s' h => renameVar_vals hv h⟩
      | app f as =>
        obtain ⟨e1, k1⟩ := buildL_same (build_same bank n) as s hv hy.2
        simp only [← e1]
        cases e2 : Gkc.buildL (build ev bank n) s as with
        | fuel => exact ⟨rfl, by simp⟩
        | illegal => exact ⟨rfl, by simp⟩
        | ok q =>
          obtain ⟨as', s1⟩ := q
          obtain ⟨w1, v1, _⟩ := k1 _ _ e2
          have w : WtT sg (.app f as') := ⟨hy.1, w1⟩
          simp only [← ha _ (.inl w)]
          refine ⟨trivial, ?_⟩
          cases e3 : ev (.app f as') with
          | none => simp
          | some r' =>
            intro r s' h
            simp only [Out.ok.injEq, Prod.mk.injEq] at h
            obtain ⟨rfl, rfl⟩ := h
            exact ⟨he.term _ _ w e3, v1⟩

include he ha in
theorem build_sameA (bank : Nat) : ∀ n, Same sg (build ev bank n) (build ev' bank n) (WtAtom sg) (fun _ => True)
  | 0 => fun s x _ _ => ⟨rfl, by simp [build]⟩
  | n + 1 => fun s x hv hx => by
    simp only [build]
    cases e : walk s.st.b (n + 1) x with
    | none => exact ⟨rfl, by simp⟩
    | some y =>
      have hy := walk_nonvar e hx.nonvar
      subst hy
      cases y with
      | const c =>
        refine ⟨rfl, fun r s' h => ?_⟩
        simp only [Out.ok.injEq, Prod.mk.injEq] at h
        obtain ⟨rfl, rfl⟩ := h
        exact ⟨trivial, hv⟩
      | var v => exact hx.elim
      | app f as =>
        obtain ⟨e1, k1⟩ := buildL_same (build_same he ha bank n) as s hv hx.2.1
        simp only [← e1]
        cases e2 : Gkc.buildL (build ev bank n) s as with
        | fuel => exact ⟨rfl, by simp⟩
        | illegal => exact ⟨rfl, by simp⟩
        | ok q =>
          obtain ⟨as', s1⟩ := q
          obtain ⟨w1, v1, l1⟩ := k1 _ _ e2
          have w : WtAtom sg (.app f as') := ⟨hx.1, w1, fun h => by rw [l1]; exact hx.2.2 h⟩
          simp only [← ha _ (.inr w)]
          refine ⟨trivial, ?_⟩
          cases e3 : ev (.app f as') with
          | none => simp
          | some r' =>
            intro r s' h
            simp only [Out.ok.injEq, Prod.mk.injEq] at h
            obtain ⟨_, rfl⟩ := h
            exact ⟨trivial, v1⟩

/-- the same for building with a replaced part -/
def SameR (sg : Const → Role) (f g : BSt → Term → Nat → Out (Term × BSt × Nat)) (P R : Term → Prop) : Prop :=
  ∀ s x p, Vals (WtT sg) s.st → P x → f s x p = g s x p ∧ ∀ r s' p', f s x p = .ok (r, s', p') → R r ∧ Vals (WtT sg) s'.st

/-- one argument of `replaceL` -/
def repOne (fr : BSt → Term → Nat → Out (Term × BSt × Nat)) (fb : BSt → Term → Out (Term × BSt)) (pos : Nat) (s : BSt) (a : Term)
    (p : Nat) : Out (Term × BSt × Nat) :=
  if p + 1 ≤ pos then fr s a (p + 1) else match fb s a with
    | .fuel => .fuel
    | .illegal => .illegal
    | .ok (a', s') => .ok (a', s', p + 1)

theorem replaceL_cons (fr : BSt → Term → Nat → Out (Term × BSt × Nat)) (fb : BSt → Term → Out (Term × BSt)) (pos : Nat) (s : BSt)
    (a : Term) (as : List Term) (p : Nat) : replaceL fr fb pos s (a :: as) p = match repOne fr fb pos s a p with
      | .fuel => .fuel
      | .illegal => .illegal
      | .ok (a', s', p') => match replaceL fr fb pos s' as p' with
        | .fuel => .fuel
        | .illegal => .illegal
        | .ok (as', s'', p'') => .ok (a' :: as', s'', p'') := rfl

theorem replaceL_same {fr gr : BSt → Term → Nat → Out (Term × BSt × Nat)} {fb gb : BSt → Term → Out (Term × BSt)} {pos : Nat}
    (hr : SameR sg fr gr (WtT sg) (WtT sg)) (hb : Same sg fb gb (WtT sg) (WtT sg)) : ∀ as s p, Vals (WtT sg) s.st →
    WtL sg as → replaceL fr fb pos s as p = replaceL gr gb pos s as p ∧ ∀ rs s' p', replaceL fr fb pos s as p = .ok (rs, s', p') →
      WtL sg rs ∧ Vals (WtT sg) s'.st ∧ rs.length = as.length
  | [], s, p, hv, _ => ⟨rfl, fun rs s' p' e => by
      simp only [replaceL, Out.ok.injEq, Prod.mk.injEq] at e
      obtain ⟨rfl, rfl, _⟩ := e
      exact ⟨trivial, hv, rfl⟩⟩
  | a :: as, s, p, hv, hw => by
    have one : repOne fr fb pos s a p = repOne gr gb pos s a p ∧ ∀ r s' p', repOne fr fb pos s a p = .ok (r, s', p') → WtT sg r ∧ Vals (WtT sg) s'.st := by
      unfold repOne
      split
      · exact hr s a (p + 1) hv hw.1
      · obtain ⟨e1, k1⟩ := hb s a hv hw.1
        rw [← e1]
        refine ⟨rfl, fun r s' p' h => ?_⟩
        cases e : fb s a with
        | fuel => rw [e] at h; cases h
        | illegal => rw [e] at h; cases h
        | ok q =>
          obtain ⟨a', s1⟩ := q
          rw [e] at h
          simp only [Out.ok.injEq, Prod.mk.injEq] at h
          obtain ⟨rfl, rfl, _⟩ := h
          exact k1 _ _ e
    obtain ⟨e1, k1⟩ := one
    rw [replaceL_cons, replaceL_cons, ← e1]
    revert k1
    generalize repOne fr fb pos s a p = o
    intro k1
    cases o with
    | fuel => exact ⟨rfl, by simp⟩
    | illegal => exact ⟨rfl, by simp⟩
    | ok q =>
      obtain ⟨a', s1, p1⟩ := q
      obtain ⟨w1, v1⟩ := k1 _ _ _ rfl
      obtain ⟨e2, k2⟩ := replaceL_same hr hb as s1 p1 v1 hw.2
      simp only
      rw [← e2]
      refine ⟨rfl, ?_⟩
      cases e3 : replaceL fr fb pos s1 as p1 with
      | fuel => simp
      | illegal => simp
      | ok q =>
        obtain ⟨as', s2, p2⟩ := q
        intro rs s' p' e4
        simp only [Out.ok.injEq, Prod.mk.injEq] at e4
        obtain ⟨rfl, rfl, _⟩ := e4
        obtain ⟨w2, v2, l2⟩ := k2 _ _ _ e3
        exact ⟨⟨w1, w2⟩, v2, by simp [l2]⟩

include he ha in
theorem built_same_at {bank pos n : Nat} {repl : Term} (hw : WtT sg repl) {s : BSt} (hv : Vals (WtT sg) s.st) (p : Nat) :
    ((match build ev bank n s repl with
      | .fuel => .fuel
      | .illegal => .illegal
      | .ok (r, s') => .ok (r, s', p)) : Out (Term × BSt × Nat)) = (match build ev' bank n s repl with
      | .fuel => .fuel
      | .illegal => .illegal
      | .ok (r, s') => .ok (r, s', p)) ∧ ∀ r s' p', ((match build ev bank n s repl with
      | .fuel => .fuel
      | .illegal => .illegal
      | .ok (r, s') => .ok (r, s', p)) : Out (Term × BSt × Nat)) = .ok (r, s', p') → WtT sg r ∧ Vals (WtT sg) s'.st := by
  obtain ⟨e1, k1⟩ := build_same he ha bank n s repl hv hw
  rw [← e1]
  refine ⟨rfl, fun r s' p' h => ?_⟩
  cases e : build ev bank n s repl with
  | fuel => rw [e] at h; cases h
  | illegal => rw [e] at h; cases h
  | ok q =>
    obtain ⟨a', s1⟩ := q
    rw [e] at h
    simp only [Out.ok.injEq, Prod.mk.injEq] at h
    obtain ⟨rfl, rfl, _⟩ := h
    exact k1 _ _ e

include he ha in
theorem buildRepl_same (bank pos : Nat) {repl : Term} (hw : WtT sg repl) : ∀ n,
    SameR sg (buildRepl ev bank pos repl n) (buildRepl ev' bank pos repl n) (WtT sg) (WtT sg)
  | 0 => fun s x p _ _ => ⟨rfl, by simp [buildRepl]⟩
  | n + 1 => fun s x p hv hx => by
    simp only [buildRepl]
    by_cases hp : p = pos
    · simp only [hp, if_true]
      exact built_same_at he ha (pos := pos) hw hv _
    · simp only [hp, if_false]
      cases x with
      | const c =>
        refine ⟨rfl, fun r s' p' h => ?_⟩
        simp only [Out.ok.injEq, Prod.mk.injEq] at h
        obtain ⟨rfl, rfl, _⟩ := h
        exact ⟨hx, hv⟩
      | var v => exact built_same_at he ha (pos := pos) (repl := .var v) trivial hv p
      | app f as =>
        obtain ⟨e1, k1⟩ := replaceL_same (pos := pos) (buildRepl_same bank pos hw n) (build_same he ha bank n) as s p hv hx.2
        simp only [← e1]
        cases e2 : replaceL (buildRepl ev bank pos repl n) (build ev bank n) pos s as p with
        | fuel => exact ⟨rfl, by simp⟩
        | illegal => exact ⟨rfl, by simp⟩
        | ok q =>
          obtain ⟨as', s1, p1⟩ := q
          obtain ⟨w1, v1, _⟩ := k1 _ _ _ e2
          have w : WtT sg (.app f as') := ⟨hx.1, w1⟩
          simp only [← ha _ (.inl w)]
          refine ⟨trivial, ?_⟩
          cases e3 : ev (.app f as') with
          | none => simp
          | some r' =>
            intro r s' p' h
            simp only [Out.ok.injEq, Prod.mk.injEq] at h
            obtain ⟨rfl, rfl, _⟩ := h
            exact ⟨he.term _ _ w e3, v1⟩

include he ha in
theorem buildRepl_sameA (bank pos : Nat) {repl : Term} (hw : WtT sg repl) : ∀ n,
    SameR sg (buildRepl ev bank pos repl n) (buildRepl ev' bank pos repl n) (WtAtom sg) (fun _ => True)
  | 0 => fun s x p _ _ => ⟨rfl, by simp [buildRepl]⟩
  | n + 1 => fun s x p hv hx => by
    simp only [buildRepl]
    by_cases hp : p = pos
    · simp only [hp, if_true]
      obtain ⟨e, k⟩ := built_same_at he ha (pos := pos) (bank := bank) (n := n + 1) hw hv pos
      exact ⟨e, fun r s' p' h => ⟨trivial, (k r s' p' h).2⟩⟩
    · simp only [hp, if_false]
      cases x with
      | const c =>
        refine ⟨rfl, fun r s' p' h => ?_⟩
        simp only [Out.ok.injEq, Prod.mk.injEq] at h
        obtain ⟨_, rfl, _⟩ := h
        exact ⟨trivial, hv⟩
      | var v => exact hx.elim
      | app f as =>
        obtain ⟨e1, k1⟩ := replaceL_same (pos := pos) (buildRepl_same he ha bank pos hw n) (build_same he ha bank n) as s p hv hx.2.1
        simp only [← e1]
        cases e2 : replaceL (buildRepl ev bank pos repl n) (build ev bank n) pos s as p with
        | fuel => exact ⟨rfl, by simp⟩
        | illegal => exact ⟨rfl, by simp⟩
        | ok q =>
          obtain ⟨as', s1, p1⟩ := q
          obtain ⟨w1, v1, l1⟩ := k1 _ _ _ e2
          have w : WtAtom sg (.app f as') := ⟨hx.1, w1, fun h => by rw [l1]; exact hx.2.2 h⟩
          simp only [← ha _ (.inr w)]
          refine ⟨trivial, ?_⟩
          cases e3 : ev (.app f as') with
          | none => simp
          | some r' =>
            intro r s' p' h
            simp only [Out.ok.injEq, Prod.mk.injEq] at h
            obtain ⟨_, rfl, _⟩ := h
            exact ⟨trivial, v1⟩

/-! ### Collecting -/

include he ha in
theorem asmAtom_same (bank n : Nat) {repl : Option (Nat × Nat × Term)} (hr : ∀ q ∈ repl, WtT sg q.2.2) (i : Nat) :
    Same sg (asmAtom ev bank n repl i) (asmAtom ev' bank n repl i) (WtAtom sg) (fun _ => True) := by
  intro s x hv hx
  unfold asmAtom
  cases repl with
  | none => exact build_sameA he ha bank n s x hv hx
  | some q =>
    obtain ⟨ln, pos, t⟩ := q
    simp only
    split
    · obtain ⟨e1, k1⟩ := buildRepl_sameA he ha bank pos (hr (ln, pos, t) rfl) n s x 0 hv hx
      rw [← e1]
      refine ⟨rfl, fun r s' h => ⟨trivial, ?_⟩⟩
      cases e : buildRepl ev bank pos t n s x 0 with
      | fuel => simp only [e] at h; cases h
      | illegal => simp only [e] at h; cases h
      | ok q =>
        obtain ⟨a', s1, p1⟩ := q
        simp only [e, Out.ok.injEq, Prod.mk.injEq] at h
        obtain ⟨rfl, rfl⟩ := h
        exact (k1 _ _ _ e).2
    · exact build_sameA he ha bank n s x hv hx

include he ha in
theorem asmCl_same (bank n : Nat) (cut : Option Nat) {repl : Option (Nat × Nat × Term)} (hr : ∀ q ∈ repl, WtT sg q.2.2) :
    ∀ cl i rs s, Vals (WtT sg) s.st → WtA sg cl → asmCl ev bank n cut repl i rs s cl = asmCl ev' bank n cut repl i rs s cl ∧
      ∀ rs' s', asmCl ev bank n cut repl i rs s cl = .ok rs' s' → Vals (WtT sg) s'.st
  | [], i, rs, s, hv, _ => ⟨rfl, fun rs' s' e => by
      simp only [asmCl, Asm.ok.injEq] at e
      rw [← e.2]; exact hv⟩
  | l :: ls, i, rs, s, hv, hw => by
    have hw' : WtA sg ls := fun k hk => hw k (by simp [hk])
    simp only [asmCl]
    split
    · exact asmCl_same bank n cut hr ls (i + 1) rs s hv hw'
    · obtain ⟨e1, k1⟩ := asmAtom_same he ha bank n hr i s l.atom hv (hw l (by simp))
      rw [← e1]
      cases e : asmAtom ev bank n repl i s l.atom with
      | fuel => exact ⟨rfl, by simp⟩
      | illegal => exact ⟨rfl, by simp⟩
      | ok q =>
        obtain ⟨a, s1⟩ := q
        have v1 := (k1 _ _ e).2
        simp only
        cases e2 : asmStep rs s1 l.neg a with
        | ok rs1 s2 =>
          obtain ⟨rfl, _⟩ := asmStep_ok e2
          exact asmCl_same bank n cut hr ls (i + 1) rs1 _ v1 hw'
        | fuel => exact ⟨rfl, by simp⟩
        | illegal => exact ⟨rfl, by simp⟩
        | taut => exact ⟨rfl, by simp⟩

include he ha in
theorem copyLits_same (bank n : Nat) : ∀ ls s, Vals (WtT sg) s.st → (∀ l ∈ ls, WtAtom sg l.atom) →
    copyLits ev bank n s ls = copyLits ev' bank n s ls
  | [], _, _, _ => rfl
  | l :: ls, s, hv, hw => by
    obtain ⟨e1, k1⟩ := build_sameA he ha bank n s l.atom hv (hw l (by simp))
    simp only [copyLits, ← e1]
    cases e : build ev bank n s l.atom with
    | fuel => rfl
    | illegal => rfl
    | ok q =>
      obtain ⟨a, s1⟩ := q
      simp only
      rw [copyLits_same bank n ls s1 (k1 _ _ e).2 (fun k hk => hw k (by simp [hk]))]

/-! ### Inferences -/

include he ha in
theorem factorLits_same {n : Nat} {st : St} {xcl : List ALit} {xa : Nat} (hv : Vals (WtT sg) st) (wx : WtA sg xcl) :
    factorLits ev 3 n st xcl xa = factorLits ev' 3 n st xcl xa := by
  unfold factorLits
  split
  · rfl
  · exact (asmCl_same he ha 3 n (some xa) (by simp) xcl 0 [] ⟨st, 0⟩ hv wx).1

include he ha in
theorem resolveLits_same {n : Nat} {st : St} {xcl ycl : List ALit} {xa ya : Nat} (hv : Vals (WtT sg) st) (wx : WtA sg xcl)
    (wy : WtA sg ycl) : resolveLits ev 3 n st xcl xa ycl ya = resolveLits ev' 3 n st xcl xa ycl ya := by
  obtain ⟨e1, k1⟩ := asmCl_same he ha 3 n (some xa) (repl := none) (by simp) xcl 0 [] ⟨st, 0⟩ hv wx
  unfold resolveLits
  split
  · rfl
  · rw [← e1]
    by_cases hx : xcl.length > 1
    · simp only [hx, if_true]
      cases e : asmCl ev 3 n (some xa) none 0 [] ⟨st, 0⟩ xcl with
      | ok rs s =>
        simp only
        rw [(asmCl_same he ha 3 n (some ya) (repl := none) (by simp) ycl 0 rs s (k1 _ _ e) wy).1]
      | _ => rfl
    · simp only [hx, if_false]
      rw [(asmCl_same he ha 3 n (some ya) (repl := none) (by simp) ycl 0 [] ⟨st, 0⟩ hv wy).1]

include he ha in
theorem paraLits_same {n : Nat} {st : St} {xcl ycl : List ALit} {xa path : Nat} {b : Term} (hv : Vals (WtT sg) st) (wx : WtA sg xcl)
    (wy : WtA sg ycl) (wb : WtT sg b) : paraLits ev 3 n st xcl xa ycl path b = paraLits ev' 3 n st xcl xa ycl path b := by
  obtain ⟨e1, k1⟩ := asmCl_same he ha 3 n (some xa) (repl := none) (by simp) xcl 0 [] ⟨st, 0⟩ hv wx
  have hq : ∀ q ∈ some (decLitnr path, decPos path, b), WtT sg q.2.2 := by
    rintro q ⟨⟩; exact wb
  unfold paraLits
  rw [← e1]
  by_cases hx : xcl.length > 1
  · simp only [hx, if_true]
    cases e : asmCl ev 3 n (some xa) none 0 [] ⟨st, 0⟩ xcl with
    | ok rs s => exact (asmCl_same he ha 3 n none hq ycl 0 rs s (k1 _ _ e) wy).1
    | _ => rfl
  · simp only [hx, if_false]
    exact (asmCl_same he ha 3 n none hq ycl 0 [] ⟨st, 0⟩ hv wy).1

include he ha in
theorem resolveInf_same {n i j : Nat} {xcl ycl : List ALit} (wx : WtA sg xcl) (wy : WtA sg ycl) :
    resolveInf ev n xcl i ycl j = resolveInf ev' n xcl i ycl j := by
  unfold resolveInf
  split
  · rename_i x y ex ey
    split
    · rfl
    · split
      · rfl
      · rfl
      · rename_i st eu
        rw [resolveLits_same he ha (unify_atoms_wt (wx x (List.mem_of_getElem? ex)) (wy y (List.mem_of_getElem? ey)) eu) wx wy]
  · rfl

include he ha in
theorem factorInf_same {n i j : Nat} {xcl : List ALit} (wx : WtA sg xcl) : factorInf ev n xcl i j = factorInf ev' n xcl i j := by
  unfold factorInf
  split
  · split
    · rename_i x y ex ey
      split
      · rfl
      · split
        · split
          · rfl
          · rfl
          · rename_i st eu
            rw [factorLits_same he ha (unify_atoms_wt (wx x (List.mem_of_getElem? ex)) (wx y (List.mem_of_getElem? ey)) eu) wx]
        · rfl
    · rfl
  · rfl

include he ha in
theorem eqReflInf_same {n i : Nat} {xcl : List ALit} (wx : WtA sg xcl) : eqReflInf ev n xcl i = eqReflInf ev' n xcl i := by
  unfold eqReflInf
  split
  · rename_i x ex
    split
    · rfl
    · split
      · rfl
      · rename_i a b ea
        obtain ⟨rest, hat⟩ := eqArgs_some ea
        split
        · rfl
        · rfl
        · rename_i st eu
          have hw := wx x (List.mem_of_getElem? ex)
          rw [hat] at hw
          have hab := wtL_iff.1 hw.2.1
          rw [factorLits_same he ha (Vals.unify wt_args _ _ _ _ _ _ vals_empty (hab a (by simp)) (hab b (by simp)) eu) wx]
  · rfl

include he ha in
theorem paraFromInf_same {n i j k : Nat} {left : Bool} {xcl ycl : List ALit} (wx : WtA sg xcl) (wy : WtA sg ycl) :
    paraFromInf ev n xcl i left ycl j k = paraFromInf ev' n xcl i left ycl j k := by
  unfold paraFromInf
  split
  · rename_i x y ex ey
    split
    · rfl
    · split
      · rename_i a b yt pos ea et
        obtain ⟨rest, hat⟩ := eqArgs_some ea
        obtain ⟨_, _, _, C, hC, rfl, hch⟩ := paraTargets_pos et
        have hw := wx x (List.mem_of_getElem? ex)
        rw [hat] at hw
        have hab := wtL_iff.1 hw.2.1
        have wa := hab a (by simp)
        have wb := hab b (by simp)
        have wc := wy y (List.mem_of_getElem? ey)
        rw [hC] at wc
        have wc := (wtAtom_fill hch wc).1
        simp only
        split
        · rfl
        · rfl
        · rename_i st eu
          rw [paraLits_same he ha (Vals.unify wt_args _ _ _ _ _ _ vals_empty (by cases left <;> assumption) wc eu) wx wy
            (by cases left <;> assumption)]
      · rfl
  · rfl

include he ha in
theorem paraIntoInf_same {n i j k : Nat} {left : Bool} {xcl ycl : List ALit} (hi : i ≤ 255) (wx : WtA sg xcl) (wy : WtA sg ycl) :
    paraIntoInf ev n xcl i left ycl j k = paraIntoInf ev' n xcl i left ycl j k := by
  unfold paraIntoInf
  split
  · rename_i x y ex ey
    split
    · rfl
    · split
      · rename_i a b yt pos ea et
        obtain ⟨rest, hat⟩ := eqArgs_some ea
        obtain ⟨_, _, _, C, hC, rfl, hch⟩ := paraTargets_pos et
        have hw := wx x (List.mem_of_getElem? ex)
        rw [hat] at hw
        have hab := wtL_iff.1 hw.2.1
        have wa := hab a (by simp)
        have wb := hab b (by simp)
        have wc := wy y (List.mem_of_getElem? ey)
        rw [hC] at wc
        have wc := (wtAtom_fill hch wc).1
        split
        · rfl
        · rfl
        · rename_i st eu
          have hv := Vals.unify wt_args _ _ _ _ _ _ vals_empty wc (by cases left <;> assumption) eu
          have e1 : decLitnr (encPath i (if left then 1 else 0)) = i := by
            rw [decLitnr_enc (by cases left <;> simp)]; exact Nat.mod_eq_of_lt (by omega)
          simp only [e1, ex, hat]
          have hb : WtT sg (if decPos (encPath i (if left then 1 else 0)) ≠ 0 then b else a) := by
            by_cases h : decPos (encPath i (if left then 1 else 0)) ≠ 0
            · rw [if_pos h]; exact wb
            · rw [if_neg h]; exact wa
          rw [paraLits_same he ha hv wx wy hb]
      · rfl
  · rfl

/-! ### Rewriting -/

theorem mapR_same {f g : Term → ROut Term} : ∀ {as : List Term}, (∀ a ∈ as, f a = g a) → mapR f as = mapR g as
  | [], _ => rfl
  | a :: as, h => by
    have e : mapR f as = mapR g as := mapR_same (fun b hb => h b (by simp [hb]))
    simp only [mapR, h a (by simp), e]

theorem bind_same {α β : Type} {o : ROut α} {f g : α → ROut β} (h : ∀ a k, o = .ok a k → f a = g a) : o.bind f = o.bind g := by
  cases o with
  | ok a k => simp only [ROut.bind, h a k rfl]
  | _ => rfl

variable {R : Term → List (Term × Term)} {G : Term → Prop} {Q : Term → Term → Prop}

theorem buildS_same (hr : RwRel ev R G Q) (hg : ∀ t, G t → ev t = ev' t) {s : St} (hc : NoChain s) : ∀ {n t}, G (subst s.val t) →
    buildS ev s n t = buildS ev' s n t := by
  intro n
  induction n with
  | zero => intro t _; rfl
  | succ n ih =>
    intro t h
    simp only [buildS]
    cases e : walk s.b (n + 1) t with
    | none => rfl
    | some y =>
      obtain ⟨e1, e2⟩ := walk_chain hc e
      rw [e1] at h
      cases y with
      | var v => rfl
      | const c => rfl
      | app f as =>
        rw [subst_app] at h
        have hga : ∀ a ∈ as, G (subst s.val a) := fun a ha => hr.gargs _ _ h _ (List.mem_map_of_mem ha)
        simp only
        rw [← mapR_same (fun a ha => ih (hga a ha))]
        refine bind_same (fun as' k h1 => ?_)
        have ha := mapR_ok h1
        have hg' : ∀ b ∈ as', G b := ha.right (fun a ha b ⟨j, hb⟩ => (buildS_rel hr hc hb (hga a ha)).1)
        have g1 := hr.gapp _ _ as' h (by rw [List.length_map]; exact ha.length) hg'
        rw [hg _ g1]

theorem rw_same (hr : RwRel ev R G Q) (hg : ∀ t, G t → ev t = ev' t) : ∀ n,
    (∀ x, G x → rwBuild ev R n x = rwBuild ev' R n x) ∧
    (∀ x, G x → rwTerm ev R n x = rwTerm ev' R n x) ∧
    (∀ x, G x → rwAgain ev R n x = rwAgain ev' R n x) := by
  intro n
  induction n with
  | zero => exact ⟨fun x _ => by simp [rwBuild], fun x _ => by simp [rwTerm], fun x _ => by simp [rwAgain]⟩
  | succ n ih =>
    obtain ⟨ihb, iht, iha⟩ := ih
    refine ⟨?_, ?_, ?_⟩
    · intro x hx
      simp only [rwBuild]
      cases x with
      | var v => rfl
      | const c => rfl
      | app f as =>
        simp only
        rw [← mapR_same (fun a ha => ihb a (hr.gargs _ _ hx a ha))]
        refine bind_same (fun f' i h1 => bind_same (fun as' k h3 => ?_))
        cases f' with
        | var v => rfl
        | app _ _ => rfl
        | const g =>
          simp only
          obtain ⟨g0, _⟩ := hr.head f g as _ _ hx h1
          have ha := mapR_ok h3
          have hga := hr.gargs _ _ g0
          have hg' : ∀ b ∈ as', G b := ha.right (fun a ha b ⟨j, hb⟩ => ((rw_rel hr n).1 _ _ _ hb (hga a ha)).1)
          have g1 := hr.gapp _ _ as' g0 ha.length hg'
          rw [← hg _ g1]
          cases er : ev (.app g as') with
          | none => rfl
          | some r =>
            simp only
            rw [iht r (hr.ev _ _ g1 er).1]
    · intro x hx
      simp only [rwTerm]
      split
      · rfl
      · rfl
      · rename_i r s e
        obtain ⟨l, hm, hs⟩ := findRule_spec e
        have hc := hr.chain _ _ _ _ _ hm hs hx
        have hxl : subst s.val l = x := (matchT_sound l St.empty x s hs).2.1
        have hst := hr.step _ _ _ s.val hm
        rw [hxl] at hst
        obtain ⟨g1, _⟩ := hst hx
        congr 1
        cases r with
        | const c => rfl
        | var v =>
          simp only
          split
          · rfl
          · rename_i b eb
            have e3 : subst s.val (.var v) = b := by simp [St.val, eb]
            rw [e3] at g1
            exact iha _ g1
        | app f as =>
          simp only
          rw [← buildS_same hr hg hc g1]
          exact bind_same (fun b k h2 => iha _ (buildS_rel hr hc h2 g1).1)
    · intro x hx
      simp only [rwAgain]
      cases x with
      | var v => rfl
      | const c => rfl
      | app f as => exact ihb _ hx
end

/-- an interpretation in which all is true and equal -/
def unitI : Interp := ⟨Unit, fun _ => (), fun _ _ => (), fun _ => True⟩

/-- rewriting of an atom that keeps to the roles -/
theorem rwAtom_same {sg : Const → Role} {ev ev' : Term → Option Term} (he : EvRole sg ev) (ha : AgreeOn sg ev ev')
    {wd : Const → Int} {eqs : List (Term × Term)} (h : Term → Nat) (hw : WtEqs sg eqs) {x : Term} (hx : WtAtom sg x)
    (hv : ∀ v ∈ vars x, ¬ InBank 2 v) (n : Nat) :
    rwBuild ev (bucketOf h (rulesOf wd eqs)) n x = rwBuild ev' (bucketOf h (rulesOf wd eqs)) n x := by
  have rel := role_rel (I := unitI) (π := fun d => d) ⟨Unit, fun d => d, fun a b => ⟨fun _ => rfl, fun _ => trivial⟩, fun _ _ _ _ => rfl⟩
    (fun a b => ⟨fun _ => rfl, fun _ => trivial⟩) (fun _ _ _ _ => rfl) h (fun e _ ρ => ⟨_, List.mem_singleton.2 rfl, by simp [Lit.tr, unitI]⟩) hw
    (fun _ _ _ _ => rfl) he (wd := wd)
  have hg : ∀ t, ((∀ v ∈ vars t, ¬ InBank 2 v) ∧ WtT sg t) → ev t = ev' t := fun t ht => ha t (.inl ht.2)
  cases n with
  | zero => simp [rwBuild]
  | succ n =>
    cases x with
    | var v => exact hx.elim
    | const c => simp [rwBuild]
    | app p as =>
      have hga : ∀ a ∈ as, (∀ v ∈ vars a, ¬ InBank 2 v) ∧ WtT sg a := fun a ha =>
        ⟨fun v hva => hv v (by rw [vars_app, mem_varsL]; exact ⟨a, ha, hva⟩), wtL_iff.1 hx.2.1 a ha⟩
      simp only [rwBuild]
      rw [← mapR_same (fun a ha => (rw_same rel hg n).1 a (hga a ha))]
      refine bind_same (fun f' i h1 => bind_same (fun as' k h3 => ?_))
      have := rwConst_role hw (by rw [hx.1]; decide) h1
      subst this
      simp only
      have hq := mapR_ok h3
      have hg' : ∀ b ∈ as', WtT sg b := hq.right (fun a ha b ⟨j, hb⟩ => ((rw_rel rel n).1 _ _ _ hb (hga a ha)).1.2)
      have e2 : WtAtom sg (.app p as') := ⟨hx.1, wtL_iff.2 hg', fun hp => by rw [← hq.length]; exact hx.2.2 hp⟩
      rw [← ha _ (.inr e2)]
      cases er : ev (.app p as') with
      | none => rfl
      | some r =>
        simp only
        rcases he.atom p as' r e2 er with rfl | rfl | ⟨bs, rfl, hbs⟩
        · simp [Term.beq]
        · simp [Term.beq]
        · congr 1
          cases n with
          | zero => simp [rwTerm]
          | succ n =>
            simp only [rwTerm]
            split
            · rfl
            · rfl
            · rename_i r s e
              exfalso
              obtain ⟨l, hm, hsm⟩ := findRule_spec e
              have hl := (matchT_sound l St.empty _ s hsm).2.1
              have hlw := (hw.side hm).1
              cases l with
              | var v =>
                obtain ⟨_, h5 | ⟨_, h5⟩⟩ := rule_gt hw.eqs hm
                · have := size_pos r; simp at h5; omega
                · cases r <;> simp [lexOrder] at h5
                  split at h5 <;> simp at h5
              | const c => simp at hl
              | app f ls =>
                simp only [subst_app, Term.app.injEq] at hl
                have h6 := hlw.1
                rw [hl.1, hbs.1] at h6
                cases h6

/-! ### Runs -/

/-- another evaluation -/
def _root_.Gkc.Cfg.withEv (c : Cfg) (ev : Term → Option Term) : Cfg := { c with ev := ev }

theorem infer_same {c : Cfg} {sg : Const → Role} {I : Interp} {ev' : Term → Option Term} (hr : Roles c sg) (ha : AgreeOn sg c.ev ev')
    {s : PState} (hs : SInv I sg s) (hl : ∀ cl ∈ s.active, cl.length ≤ 256) {r : List Lit} (h : Infer c s r) :
    Infer (c.withEv ev') s r := by
  cases h with
  | resolve hx hy h =>
    exact .resolve hx hy ((resolveInf_same hr.ev ha (hs.given _ hx).wt (hs.active _ hy).wt).symm.trans h)
  | factor hx h => exact .factor hx ((factorInf_same hr.ev ha (hs.given _ hx).wt).symm.trans h)
  | reflexive hx h => exact .reflexive hx ((eqReflInf_same hr.ev ha (hs.given _ hx).wt).symm.trans h)
  | paraFrom hx hy h =>
    exact .paraFrom hx hy ((paraFromInf_same hr.ev ha (hs.given _ hx).wt (hs.active _ hy).wt).symm.trans h)
  | @paraInto x y n i j k left r hx hy h =>
    have hi : i ≤ 255 := by
      have := hl _ hy
      simp only [paraIntoInf] at h
      cases e : y[i]? with
      | none => rw [e] at h; simp at h
      | some q => have := (List.getElem?_eq_some_iff.1 e).1; omega
    exact .paraInto hx hy ((paraIntoInf_same hr.ev ha hi (hs.active _ hy).wt (hs.given _ hx).wt).symm.trans h)
  | @instgen x y cl xl yl n n' b st st' r s' hx hy hxl hyl hu hst hcl h =>
    have gx := hs.given _ hx
    have gy := hs.active _ hy
    have hq : Vals (WtT sg) st' := by
      intro v t e
      rcases hst v t e with e | ⟨_, k, _, rfl⟩
      · exact unify_atoms_wt (gx.wt xl hxl) (gy.wt yl hyl) hu v t e
      · trivial
    have wcl : WtA sg cl := by rcases hcl with rfl | rfl; exact gx.wt; exact gy.wt
    exact .instgen hx hy hxl hyl hu hst hcl
      ((asmCl_same hr.ev ha 3 n' none (by simp) cl 0 [] ⟨st', 0⟩ hq wcl).1.symm.trans h)
  | @arith x n st r s' hx hst h =>
    have hq : Vals (WtT sg) st := by
      intro v t e
      obtain ⟨_, k, hk, rfl⟩ := hst v t e
      exact hr.num k hk
    exact .arith hx hst ((asmCl_same hr.ev ha 3 n none (by simp) x 0 [] ⟨st, 0⟩ hq (hs.cur _ hx).wt).1.symm.trans h)

theorem rwRun_same {c : Cfg} {sg : Const → Role} {I : Interp} {ev' : Term → Option Term} (hr : Roles c sg) (ha : AgreeOn sg c.ev ev')
    {s : PState} (hs : SInv I sg s) {cl : List ALit} (hc : PCl I sg cl) {rw' : ALit → Out (ALit × Bool)} (h : RwRun c s.eqs cl rw') :
    RwRun (c.withEv ev') s.eqs cl rw' := by
  intro x hx y w e
  obtain ⟨⟨n, k, e1⟩, e2⟩ := h x hx y w e
  refine ⟨⟨n, k, ?_⟩, e2⟩
  exact (rwAtom_same hr.ev ha c.h hs.eqsWt (hc.wt x hx) (fun v hv => (hc.vars x hx v hv).2) n).symm.trans e1

theorem step_same {c : Cfg} {sg : Const → Role} {I : Interp} {ev' : Term → Option Term} (hr : Roles c sg) (ha : AgreeOn sg c.ev ev')
    {s t : PState} (hs : SInv I sg s) (hl : ∀ cl ∈ s.active, cl.length ≤ 256) (h : LStep c s t) : LStep (c.withEv ev') s t := by
  cases h with
  | pick h hp => exact .pick h hp
  | simplifyEmpty h hu hrw he => exact .simplifyEmpty h hu (rwRun_same hr ha hs (hs.cur _ h) hrw) he
  | simplify h hu hrw he hn hst => exact .simplify h hu (rwRun_same hr ha hs (hs.cur _ h) hrw) he hn hst
  | simplifyFactEmpty h hx hrw he => exact .simplifyFactEmpty h hx (rwRun_same hr ha hs (hs.cur _ h) hrw) he
  | simplifyFact h hx hrw he hn hst => exact .simplifyFact h hx (rwRun_same hr ha hs (hs.cur _ h) hrw) he hn hst
  | @activate cl g a n n' r r' s1 s2 h ht h1 hg h2 hac =>
    have hc := hs.cur _ h
    have wc : ∀ l ∈ cl.map ALit.lit, WtAtom sg l.atom := fun l hl => by
      obtain ⟨l', hl', rfl⟩ := List.mem_map.1 hl; exact hc.wt l' hl'
    obtain ⟨c1, _⟩ := copyCl_spec hr.ev h1
      (fun l hl v hv => by obtain ⟨l', hl', rfl⟩ := List.mem_map.1 hl; exact (hc.vars l' hl' v hv).1) wc
    exact .activate h ht ((copyLits_same hr.ev ha 1 n _ ⟨St.empty, 0⟩ vals_empty wc).symm.trans h1) hg
      ((copyLits_same hr.ev ha 2 n' _ ⟨St.empty, 0⟩ vals_empty (fun l hl => (c1.wt l hl).1)).symm.trans h2) hac
  | deriveEmpty h hu hst htag hfi => exact .deriveEmpty (infer_same hr ha hs hl h) hu hst htag hfi
  | derive h hu hst htag hfi hn hsto => exact .derive (infer_same hr ha hs hl h) hu hst htag hfi hn hsto
  | learnUnit h => exact .learnUnit h
  | learnUnitKb h => exact .learnUnitKb h
  | learnStrong h => exact .learnStrong h
  | learnDouble h => exact .learnDouble h
  | learnEq h hx ha => exact .learnEq h hx ha
  | answer h ha => exact .answer h ha
  | propFeed g h => exact .propFeed g h
  | propContra h => exact .propContra h
  | propSolve h hu => exact .propSolve h hu
  | forget h1 h2 h3 h4 h5 h6 h7 h8 h9 h10 h11 h12 => exact .forget h1 h2 h3 h4 h5 h6 h7 h8 h9 h10 h11 h12

/-- A run with the evaluation of `c` is a run with `ev'`, if the input clauses are true in an
interpretation that makes `ev'` right. -/
theorem run_same {c : Cfg} {sg : Const → Role} {I : Interp} {ev' : Term → Option Term} (hr : Roles c sg) (hr' : Roles (c.withEv ev') sg)
    (ha : AgreeOn sg c.ev ev') (hf : Fits (c.withEv ev') I) {input : List (List ALit)} (hi : ∀ cl ∈ input, InputOk sg cl)
    (ht : ∀ cl ∈ input, ClTrue I (plain cl)) {s : PState} (h : Run c ShortActive input s) : Run (c.withEv ev') ShortActive input s := by
  induction h with
  | start h => exact .start h
  | step _ hs hp ih =>
    obtain ⟨i1, i2⟩ := run_inv hf hr' hi ht ih
    exact .step ih (step_same hr ha i1 i2 hs) hp

open Classical in
/-- the evaluation, left out on terms that do not keep to the roles -/
noncomputable def roleEv (sg : Const → Role) (ev : Term → Option Term) (t : Term) : Option Term :=
  if WtT sg t ∨ WtAtom sg t then ev t else some t

theorem roleEv_agree (sg : Const → Role) (ev : Term → Option Term) : AgreeOn sg ev (roleEv sg ev) := by
  intro t ht
  simp [roleEv, ht]

theorem roleEv_role {sg : Const → Role} {ev : Term → Option Term} (he : EvRole sg ev) : EvRole sg (roleEv sg ev) := by
  refine ⟨fun t t' hw e => ?_, fun p as t' hw e => ?_, fun t t' e => ?_⟩
  · rw [← roleEv_agree sg ev t (.inl hw)] at e; exact he.term t t' hw e
  · rw [← roleEv_agree sg ev _ (.inr hw)] at e; exact he.atom p as t' hw e
  · unfold roleEv at e
    split at e
    · exact he.vars t t' e
    · cases e; exact fun v hv => hv

/-- the evaluation is right for terms and atoms that keep to the roles -/
def RoleSound (sg : Const → Role) (I : Interp) (ev : Term → Option Term) : Prop :=
  ∀ t t', (WtT sg t ∨ WtAtom sg t) → ev t = some t' → ∀ ρ : Nat → I.D, eval I ρ t' = eval I ρ t

theorem roleEv_sound {sg : Const → Role} {I : Interp} {ev : Term → Option Term} (h : RoleSound sg I ev) : EvSound I (roleEv sg ev) := by
  intro t t' e ρ
  unfold roleEv at e
  split at e
  · rename_i hw; exact h t t' hw e ρ
  · cases e; rfl

end Gkc.Props
