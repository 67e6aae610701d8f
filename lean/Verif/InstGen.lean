import Verif.BuildLemmas
import Verif.DeriveLemmas
/-
Instances of the parents of a resolution step: Reasoner/derive.c wr_process_instgen_result
(lines 395-602), used with the strategy `instgen`.

The function is called twice after a resolvent was built (Reasoner/resolve.c:336-346).  The bindings
are not restored in between: variables renamed while the resolvent was built stay bound to the
numbers from 4000 on (build.c:330-338), but the counter of new variables starts at 0 again
(derive.c:2164).
-/
namespace Gkc
open Term

/-- Bindings at the moment of the call: some of those made by the unification (`st`), the others
removed by wr_clear_varstack, and any renamings. -/
def LeftOver (st st' : St) : Prop :=
  ∀ v t, st'.b v = some t → st.b v = some t ∨ (v < 4000 ∧ ∃ k, k < 1000 ∧ t = .var (4000 + k))

/-- the literals collected by wr_process_instgen_result, Reasoner/derive.c:425-458; the copy of
wr_process_resolve_result_aux called (derive.c:1528-1643) leaves out no literal -/
def instgenLits (ev : Term → Option Term) (n : Nat) (st : St) (cl : List ALit) : Asm :=
  asmCl ev 3 n none none 0 [] ⟨st, 0⟩ cl

/-- resolution followed by the two calls, Reasoner/resolve.c:318-346, when the resolvent was collected to
its end: the resolvent's literals, then those of the two instances -/
def resolveInstgen (ev : Term → Option Term) (n : Nat) (xcl : List ALit) (i : Nat) (ycl : List ALit) (j : Nat) :
    Option (List Lit × List Lit × List Lit) :=
  match xcl[i]?, ycl[j]? with
  | some x, some y => match unify n St.empty x.atom y.atom with
    | some (true, st) => match resolveLits ev 3 n st xcl x.addr ycl y.addr with
      | .ok r s1 => match instgenLits ev n s1.st xcl with
        | .ok r1 s2 => match instgenLits ev n s2.st ycl with
          | .ok r2 _ => some (r, r1, r2)
          | _ => none
        | _ => none
      | _ => none
    | _ => none
  | _, _ => none

/-! ### Building from any bindings -/

/-- bound variables are below 4000, values have variables below 5000, no cycles -/
structure Loose (st : St) : Prop where
  rng : ∀ v t, st.b v = some t → v < 4000 ∧ ∀ w ∈ vars t, w < 5000
  acyc : Acyclic st.b

theorem Loose.set {st : St} (h : Loose st) {v k : Nat} (hv : v < 4000) (hk : k < 1000) : Loose (st.set v (.var (4000 + k))) := by
  refine ⟨?_, ?_⟩
  · intro w t e
    simp only [St.set] at e
    split at e
    · rename_i e'
      simp only [Option.some.injEq] at e
      subst e; subst e'
      exact ⟨hv, by simp; omega⟩
    · exact h.rng w t e
  · obtain ⟨rank, hr⟩ := h.acyc
    refine ⟨fun w => if w < 4000 then rank w + 1 else 0, ?_⟩
    rintro a w ⟨t, e, hw⟩
    simp only [St.set] at e
    split at e
    · rename_i e'
      simp only [Option.some.injEq] at e
      subst e; subst e'
      simp only [vars_var, List.mem_singleton] at hw
      subst hw
      simp only [hv, if_true, show ¬ (4000 + k < 4000) by omega, if_false]; omega
    · have h1 := (h.rng a t e).1
      have h2 := hr a w ⟨t, e, hw⟩
      simp only [h1, if_true]
      split <;> omega

theorem Loose.walk {st : St} (h : Loose st) : ∀ {n x r}, walk st.b n x = some r →
    (∀ w ∈ vars x, w < 5000) → ∀ w ∈ vars r, w < 5000 := by
  intro n
  induction n with
  | zero => intro x r e; simp [Gkc.walk] at e
  | succ n ih =>
    intro x r e hx
    cases x with
    | var v =>
      simp only [Gkc.walk] at e
      split at e
      · simp only [Option.some.injEq] at e; subst e; exact hx
      · rename_i t hb; exact ih e (h.rng v t hb).2
    | const c => simp [Gkc.walk] at e; subst e; exact hx
    | app f as => simp [Gkc.walk] at e; subst e; exact hx

theorem Solves.ext {μ : Nat → Term} {s s' : St} (h : Solves μ s'.b) (he : St.Ext s s') : Solves μ s.b :=
  fun v t e => h v t (he.mono e)

/-- `Q` holds of all bindings (used with `Q` that is true of variables) -/
def AllVals (Q : Term → Prop) (st : St) : Prop := ∀ v t, st.b v = some t → Q t

/-- what the builders keep -/
def Keeps (Q : Term → Prop) (s s' : BSt) : Prop := Loose s'.st ∧ (AllVals Q s.st → AllVals Q s'.st) ∧ St.Ext s.st s'.st

theorem buildL_loose {Q : Term → Prop} {f : BSt → Term → Out (Term × BSt)}
    (hf : ∀ s x r s', Loose s.st → f s x = .ok (r, s') → Keeps Q s s') :
    ∀ as s rs s', Loose s.st → buildL f s as = .ok (rs, s') → Keeps Q s s' := by
  intro as
  induction as with
  | nil =>
    intro s rs s' hl e
    simp only [buildL, Out.ok.injEq, Prod.mk.injEq] at e
    rw [← e.2]; exact ⟨hl, id, .refl _⟩
  | cons a as ih =>
    intro s rs s' hl e
    simp only [buildL] at e
    split at e
    · cases e
    · cases e
    · rename_i a' s1 ea
      split at e
      · cases e
      · cases e
      · rename_i as' s2 eb
        simp only [Out.ok.injEq, Prod.mk.injEq] at e
        rw [← e.2]
        obtain ⟨a1, a2, a3⟩ := hf _ _ _ _ hl ea
        obtain ⟨b1, b2, b3⟩ := ih _ _ _ a1 eb
        exact ⟨b1, fun h => b2 (a2 h), a3.trans b3⟩

theorem build_loose {Q : Term → Prop} (hQ : ∀ v, Q (.var v)) {ev bank} : ∀ n s x r s', Loose s.st →
    build ev bank n s x = .ok (r, s') → Keeps Q s s' := by
  intro n
  induction n with
  | zero => intro s x r s' _ e; simp [build] at e
  | succ n ih =>
    intro s x r s' hl e
    simp only [build] at e
    split at e
    · cases e
    · simp only [Out.ok.injEq, Prod.mk.injEq] at e
      rw [← e.2]; exact ⟨hl, id, .refl _⟩
    · rename_i v hw
      have hb := walk_unbound hw
      simp only [renameVar] at e
      split at e
      · rename_i hv
        split at e
        · cases e
        · simp only [Out.ok.injEq, Prod.mk.injEq] at e
          rw [← e.2]
          refine ⟨hl.set hv (by omega), ?_, .set hb⟩
          intro h w t e'
          simp only [St.set] at e'
          split at e'
          · simp only [Option.some.injEq] at e'
            rw [← e']; exact hQ _
          · exact h w t e'
      · simp only [Out.ok.injEq, Prod.mk.injEq] at e
        rw [← e.2]; exact ⟨hl, id, .refl _⟩
    · split at e
      · cases e
      · cases e
      · rename_i as' s1 ea
        split at e
        · cases e
        · simp only [Out.ok.injEq, Prod.mk.injEq] at e
          rw [← e.2]; exact buildL_loose ih _ _ _ _ hl ea

/-- numbers from 4000 on stand for the new variables -/
def NewVars (bank : Nat) (μ : Nat → Term) : Prop := ∀ k, k < 1000 → μ (4000 + k) = .var (bank * 1000 + k)

theorem buildL_norm {ev : Term → Option Term} {μ : Nat → Term} {f : BSt → Term → Out (Term × BSt)}
    (hk : ∀ s x r s', Loose s.st → f s x = .ok (r, s') → Keeps (fun _ => True) s s')
    (hf : ∀ s x r s', Loose s.st → (∀ w ∈ vars x, w < 5000) → f s x = .ok (r, s') → Solves μ s'.st.b → norm ev (subst μ x) = some r) :
    ∀ as s rs s', Loose s.st → (∀ w ∈ varsL as, w < 5000) → buildL f s as = .ok (rs, s') → Solves μ s'.st.b →
      normL ev (substL μ as) = some rs := by
  intro as
  induction as with
  | nil =>
    intro s rs s' hl _ e _
    simp only [buildL, Out.ok.injEq, Prod.mk.injEq] at e
    rw [← e.1]; rfl
  | cons a as ih =>
    intro s rs s' hl hx e hs
    simp only [buildL] at e
    split at e
    · cases e
    · cases e
    · rename_i a' s1 ea
      split at e
      · cases e
      · cases e
      · rename_i as' s2 eb
        simp only [Out.ok.injEq, Prod.mk.injEq] at e
        obtain ⟨rfl, rfl⟩ := e
        have k1 := hk _ _ _ _ hl ea
        have k2 := buildL_loose hk _ _ _ _ k1.1 eb
        have e1 := hf _ _ _ _ hl (fun w h => hx w (by simp [varsL, h])) ea (hs.ext k2.2.2)
        have e2 := ih _ _ _ k1.1 (fun w h => hx w (by simp [varsL, h])) eb hs
        simp only [substL, normL, e1, e2]

/-- the built term is the evaluated instance by any substitution that agrees with the bindings made
in the end -/
theorem build_norm {ev : Term → Option Term} {bank : Nat} {μ : Nat → Term} (hμ : NewVars bank μ) : ∀ n s x r s', Loose s.st →
    (∀ w ∈ vars x, w < 5000) → build ev bank n s x = .ok (r, s') → Solves μ s'.st.b → norm ev (subst μ x) = some r := by
  intro n
  induction n with
  | zero => intro s x r s' _ _ e; simp [build] at e
  | succ n ih =>
    intro s x r s' hl hx e hs
    have hk := (build_loose (Q := fun _ => True) (fun _ => trivial) _ _ _ _ _ hl e).2.2
    have hs0 := hs.ext hk
    simp only [build] at e
    split at e
    · cases e
    · rename_i c hw
      simp only [Out.ok.injEq, Prod.mk.injEq] at e
      rw [walk_solves hs0 hw, ← e.1]; simp [norm]
    · rename_i v hw
      have hb := walk_unbound hw
      have h5 := hl.walk hw hx v (by simp)
      rw [walk_solves hs0 hw, subst_var]
      simp only [renameVar] at e
      split at e
      · rename_i hv
        split at e
        · cases e
        · rename_i hc
          simp only [Out.ok.injEq, Prod.mk.injEq] at e
          obtain ⟨rfl, rfl⟩ := e
          have := hs v (.var (4000 + s.vc)) (by simp [St.set])
          rw [this, subst_var, hμ _ (by omega)]
          simp [norm]
      · simp only [Out.ok.injEq, Prod.mk.injEq] at e
        rw [← e.1]
        have := hμ (v - 4000) (by omega)
        rw [show 4000 + (v - 4000) = v by omega] at this
        rw [this]; simp [norm]
    · rename_i f as hw
      have h5 := hl.walk hw hx
      rw [walk_solves hs0 hw]
      split at e
      · cases e
      · cases e
      · rename_i as' s1 ea
        split at e
        · cases e
        · rename_i r' er
          simp only [Out.ok.injEq, Prod.mk.injEq] at e
          obtain ⟨rfl, rfl⟩ := e
          have := buildL_norm (fun s x r s' => build_loose (fun _ => trivial) n s x r s') ih _ _ _ _ hl (by simpa using h5) ea hs
          simp only [subst, norm, this, er]

/-! ### Collecting -/

/-- literals built from those of a clause by the substitution -/
inductive BuiltBy (ev : Term → Option Term) (μ : Nat → Term) : List ALit → List Lit → Prop
  | nil : BuiltBy ev μ [] []
  | cons {l : ALit} {l' : Lit} {ls ls'} (hn : l'.neg = l.neg) (ha : norm ev (subst μ l.atom) = some l'.atom)
      (h : BuiltBy ev μ ls ls') : BuiltBy ev μ (l :: ls) (l' :: ls')

theorem asmCl_loose {Q : Term → Prop} (hQ : ∀ v, Q (.var v)) {ev bank n} : ∀ cl i rs s rs' s', Loose s.st →
    asmCl ev bank n none none i rs s cl = .ok rs' s' → Keeps Q s s' := by
  intro cl
  induction cl with
  | nil =>
    intro i rs s rs' s' hl h
    simp only [asmCl, Asm.ok.injEq] at h
    rw [← h.2]; exact ⟨hl, id, .refl _⟩
  | cons l ls ih =>
    intro i rs s rs' s' hl h
    simp only [asmCl, asmAtom, reduceCtorEq, if_false] at h
    split at h
    · cases h
    · cases h
    · rename_i a s1 ea
      split at h
      · rename_i rs1 s2 es
        obtain ⟨rfl, _⟩ := asmStep_ok es
        obtain ⟨a1, a2, a3⟩ := build_loose hQ _ _ _ _ _ hl ea
        obtain ⟨b1, b2, b3⟩ := ih _ _ _ _ _ a1 h
        exact ⟨b1, fun h => b2 (a2 h), a3.trans b3⟩
      · rename_i hne
        exact absurd h (hne rs' s')

theorem asmCl_norm {ev : Term → Option Term} {bank n : Nat} {μ : Nat → Term} (hμ : NewVars bank μ) : ∀ cl i rs s rs' s', Loose s.st →
    (∀ l ∈ cl, ∀ w ∈ vars l.atom, w < 5000) → asmCl ev bank n none none i rs s cl = .ok rs' s' → Solves μ s'.st.b →
    ∃ Ns, BuiltBy ev μ cl Ns ∧ Merged rs Ns rs' := by
  intro cl
  induction cl with
  | nil =>
    intro i rs s rs' s' hl _ h _
    simp only [asmCl, Asm.ok.injEq] at h
    rw [← h.1]
    exact ⟨[], .nil, .refl _⟩
  | cons l ls ih =>
    intro i rs s rs' s' hl hx h hs
    simp only [asmCl, asmAtom, reduceCtorEq, if_false] at h
    split at h
    · cases h
    · cases h
    · rename_i a s1 ea
      split at h
      · rename_i rs1 s2 es
        obtain ⟨rfl, hm⟩ := asmStep_ok es
        have k1 := build_loose (Q := fun _ => True) (fun _ => trivial) _ _ _ _ _ hl ea
        have k2 := asmCl_loose (Q := fun _ => True) (fun _ => trivial) _ _ _ _ _ _ k1.1 h
        have e1 := build_norm hμ _ _ _ _ _ hl (hx l (by simp)) ea (hs.ext k2.2.2)
        obtain ⟨Ns, hB, hM⟩ := ih _ _ _ _ _ k1.1 (fun k hk => hx k (by simp [hk])) h hs
        exact ⟨⟨l.neg, a⟩ :: Ns, .cons rfl e1 hB, hm.cons hM⟩
      · rename_i hne
        exact absurd h (hne rs' s')

/-- a substitution that agrees with the bindings and brings in variables of the bank only -/
theorem Loose.subst {st : St} (h : Loose st) (bank : Nat) : ∃ μ, Solves μ st.b ∧ NewVars bank μ ∧
    (∀ v, ∀ w ∈ vars (μ v), bank * 1000 ≤ w ∧ w < bank * 1000 + 1000) ∧
    ∃ θ η, (∀ v, μ v = Term.subst η (θ v)) ∧ Solves θ st.b ∧ (∀ v, st.b v = none → θ v = .var v) ∧ ∀ v, ∃ w, η v = .var w := by
  obtain ⟨θ, h1, h2, _⟩ := h.acyc.solution
  let η : Nat → Term := fun v => if 4000 ≤ v ∧ v < 5000 then .var (bank * 1000 + (v - 4000)) else .var (bank * 1000)
  refine ⟨fun v => Term.subst η (θ v), ?_, ?_, ?_, θ, η, fun _ => rfl, h1, h2, ?_⟩
  · intro v t e
    show Term.subst η (θ v) = _
    rw [h1 v t e, subst_subst]
  · intro k hk
    have : st.b (4000 + k) = none := by
      cases e : st.b (4000 + k) with
      | none => rfl
      | some t => have := (h.rng _ _ e).1; omega
    show Term.subst η (θ (4000 + k)) = _
    rw [h2 _ this, subst_var]
    have e : η (4000 + k) = .var (bank * 1000 + (4000 + k - 4000)) := if_pos ⟨by omega, by omega⟩
    rw [e, show 4000 + k - 4000 = k by omega]
  · intro v w hw
    obtain ⟨u, _, hw⟩ := mem_vars_subst.1 hw
    simp only [η] at hw
    split at hw <;> simp at hw <;> omega
  · intro v
    simp only [η]
    split <;> exact ⟨_, rfl⟩

end Gkc
