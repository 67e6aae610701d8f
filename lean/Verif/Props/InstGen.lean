import Verif.InstGen
import Verif.Props.Roles
/- Property theorems C47: instances of the parents of a resolution step. -/
namespace Gkc.Props
open Gkc Term

theorem leftOver_loose {st st' : St} (h : LeftOver st st') (hr : Rng 4000 st) (ha : Acyclic st.b) : Loose st' := by
  refine ⟨?_, ?_⟩
  · intro v t e
    rcases h v t e with e | ⟨h1, k, h2, rfl⟩
    · exact ⟨(hr v t e).1, fun w hw => by have := (hr v t e).2 w hw; omega⟩
    · exact ⟨h1, by simp; omega⟩
  · obtain ⟨rank, hk⟩ := ha
    refine ⟨fun w => if w < 4000 then rank w + 1 else 0, ?_⟩
    rintro a w ⟨t, e, hw⟩
    rcases h a t e with e | ⟨h1, k, h2, rfl⟩
    · have h1 := hr a t e
      have h2 := hk a w ⟨t, e, hw⟩
      simp only [h1.1, h1.2 w hw, if_true]; omega
    · simp only [vars_var, List.mem_singleton] at hw
      subst hw
      simp only [h1, if_true, show ¬ (4000 + k < 4000) by omega, if_false]; omega

theorem builtBy_tr {I : Interp} {ev : Term → Option Term} (hev : EvSound I ev) {μ : Nat → Term} {cl : List ALit} {Ns : List Lit}
    (h : BuiltBy ev μ cl Ns) (ρ : Nat → I.D) (ht : ClTrue I (plain cl)) : ∃ l ∈ Ns, l.tr I ρ := by
  have key : ∀ l ∈ plain cl, l.tr I (fun v => eval I ρ (μ v)) → ∃ k ∈ Ns, k.tr I ρ := by
    clear ht
    induction h with
    | nil => intro l hl; cases hl
    | @cons l l' ls ls' hn ha _ ih =>
      intro k hk
      rcases List.mem_cons.1 hk with rfl | hk
      · intro h
        refine ⟨l', by simp, ?_⟩
        have := norm_eval hev ρ _ _ ha
        rw [eval_subst] at this
        simp only [Lit.tr, hn, this]
        exact h
      · intro h
        obtain ⟨m, hm, h⟩ := ih k hk h
        exact ⟨m, by simp [hm], h⟩
  obtain ⟨l, hl, h⟩ := ht (fun v => eval I ρ (μ v))
  exact key l hl h

theorem builtBy_wt {sg : Const → Role} {ev : Term → Option Term} (he : EvRole sg ev) {bank : Nat} {μ : Nat → Term} {cl : List ALit}
    {Ns : List Lit} (h : BuiltBy ev μ cl Ns) (hw : WtA sg cl) (hμ : ∀ v, WtT sg (μ v))
    (hb : ∀ v, ∀ w ∈ vars (μ v), bank * 1000 ≤ w ∧ w < bank * 1000 + 1000) :
    ∀ l ∈ Ns, (l.atom = .const aTrue ∨ l.atom = .const aFalse ∨ WtAtom sg l.atom) ∧ ∀ v ∈ vars l.atom, InBank bank v := by
  induction h with
  | nil => simp
  | @cons l l' ls ls' hn ha _ ih =>
    intro k hk
    rcases List.mem_cons.1 hk with rfl | hk
    · refine ⟨?_, ?_⟩
      · rcases norm_wtAtom he ha ((hw _ List.mem_cons_self).subst (fun v _ => hμ v)) with h | h | h
        · exact .inl h
        · exact .inr (.inl h)
        · exact .inr (.inr h.1)
      · intro v hv
        obtain ⟨w, _, h⟩ := mem_vars_subst.1 (norm_vars he ha v hv)
        exact hb w v h
    · exact ih (fun l hl => hw l (List.mem_cons_of_mem _ hl)) k hk

/-- the collected literals are an instance, keep to the roles and have variables of bank 3 -/
theorem instgen_core {st : St} (hl : Loose st) {ev : Term → Option Term} {n : Nat} {cl : List ALit}
    (hv : ∀ l ∈ cl, ∀ w ∈ vars l.atom, w < 4000) {r : List Lit} {s' : BSt} (h : instgenLits ev n st cl = .ok r s') :
    (∀ I : Interp, EvSound I ev → TruthOk I → ClTrue I (plain cl) → ClTrue I r) ∧
    ∀ sg : Const → Role, EvRole sg ev → AllVals (WtT sg) st → WtA sg cl → WtCl sg 3 r := by
  have h5 : ∀ l ∈ cl, ∀ w ∈ vars l.atom, w < 5000 := fun l hl w hw => by have := hv l hl w hw; omega
  refine ⟨?_, ?_⟩
  · intro I hev ht htr ρ
    obtain ⟨hl', _, _⟩ := asmCl_loose (Q := fun _ => True) (fun _ => trivial) _ _ _ _ _ _ hl h
    obtain ⟨μ, h1, h2, _⟩ := hl'.subst 3
    obtain ⟨Ns, hB, hM⟩ := asmCl_norm h2 _ _ _ _ _ _ hl h5 h h1
    rw [hM.tr ht ρ]
    exact .inr (builtBy_tr hev hB ρ htr)
  · intro sg he hst hw
    obtain ⟨hl', hq, _⟩ := asmCl_loose (Q := WtT sg) (fun _ => trivial) _ _ _ _ _ _ hl h
    obtain ⟨μ, h1, h2, h3, θ, η, h4, h5', h6, h7⟩ := hl'.subst 3
    obtain ⟨Ns, hB, hM⟩ := asmCl_norm h2 _ _ _ _ _ _ hl h5 h h1
    have hθ : ∀ v, WtT sg (θ v) := by
      obtain ⟨rank, hk⟩ := hl'.acyc
      have key : ∀ k v, rank v < k → WtT sg (θ v) := by
        intro k
        induction k with
        | zero => intro v h; omega
        | succ k ih =>
          intro v hlt
          cases hb : s'.st.b v with
          | none => rw [h6 v hb]; trivial
          | some t =>
            rw [h5' v t hb]
            exact (hq hst v t hb).subst (fun w hw => ih w (by have := hk v w ⟨t, hb, hw⟩; omega))
      exact fun v => key _ v (Nat.lt_succ_self _)
    have hμ : ∀ v, WtT sg (μ v) := by
      intro v
      rw [h4]
      refine (hθ v).subst (fun w _ => ?_)
      obtain ⟨u, e⟩ := h7 w
      rw [e]; trivial
    intro l hr
    have k1 := (hM.only l hr).resolve_left (by simp)
    have k2 := (hM.notruth l hr).resolve_left (by simp)
    obtain ⟨k3, k4⟩ := builtBy_wt he hB hw hμ h3 l k1
    rcases k3 with h | h | h
    · exact absurd h k2.1
    · exact absurd h k2.2
    · exact ⟨h, k4⟩

/-- **C47.** A clause made by instance generation is true wherever the parent is: for all parents, all
bindings the unification of the two literals may have left and all renamings left behind by the
building of the resolvent. -/
theorem C47_instance_sound (I : Interp) (ev : Term → Option Term) (hev : EvSound I ev) (ht : TruthOk I) (n n' : Nat)
    (x y : Term) (hx : ∀ v ∈ vars x, v < 4000) (hy : ∀ v ∈ vars y, v < 4000) (b : Bool) (st st' : St)
    (hu : unify n St.empty x y = some (b, st)) (hl : LeftOver st st') (cl : List ALit)
    (hv : ∀ l ∈ cl, ∀ v ∈ vars l.atom, v < 4000) (r : List Lit) (s' : BSt) (h : instgenLits ev n' st' cl = .ok r s')
    (hc : ClTrue I (plain cl)) : ClTrue I r :=
  (instgen_core (leftOver_loose hl (Rng.unify (by intro v t hv; simp [St.empty] at hv) hx hy hu) (unify_acyclic hu)) hv h).1 I hev ht hc

/-- **C47, partial.** If no variable was renamed before, the clause means the same as the instance of
the parent by a most general unifier `θ` of the two atoms.  Missing: renamings left behind by the
building of the resolvent, with which it is false (`C47_instance_too_special`). -/
theorem C47_instance_exact_partial (I : Interp) (ev : Term → Option Term) (hev : EvSound I ev) (ht : TruthOk I) (n n' : Nat)
    (x y : Term) (hx : ∀ v ∈ vars x, v < 4000) (hy : ∀ v ∈ vars y, v < 4000) (st : St)
    (hu : unify n St.empty x y = some (true, st)) (cl : List ALit)
    (hv : ∀ l ∈ cl, ∀ v ∈ vars l.atom, v < 4000) (r : List Lit) (s' : BSt) (h : instgenLits ev n' st cl = .ok r s') :
    ∃ θ, subst θ x = subst θ y ∧ (∀ τ, subst τ x = subst τ y → ∀ v, τ v = subst τ (θ v)) ∧
      (ClTrue I r ↔ ClTrue I ((plain cl).map (Lit.subst θ))) := by
  obtain ⟨θ, hd, h1, h2⟩ := unify_den hu hx hy
  refine ⟨θ, h1, h2, ?_⟩
  obtain ⟨Ls, Ns, names, hP, hi, _, hB, hM, _⟩ := asmCl_spec hd (fun _ _ _ e => by cases e) cl 0 [] ⟨st, 0⟩ [] r s' BInv.init hv h
  have hc : Collected ev 3 Ls r := ⟨names, Ns, hi.nodup, hi.le, hB, hM⟩
  have hL : Ls = (plain cl).map (Lit.subst θ) := by
    clear h hB hM hc
    have : ∀ {cl : List ALit} {i : Nat} {Ls : List Lit}, Picked θ none none i cl Ls → Ls = (plain cl).map (Lit.subst θ) := by
      intro cl
      induction cl with
      | nil => intro i Ls h; cases h; rfl
      | cons l ls ih =>
        intro i Ls h
        cases h with
        | skip hc h => cases hc
        | take hc hi h =>
          rw [ih h]
          simp only [InstOf] at hi
          subst hi
          rfl
    exact this hP
  rw [← hL]
  exact hc.equiv hev ht

/-- p(f(X)) or q(U) -/
def igX : List ALit := [⟨1, false, .app (.sym "p") [.app (.sym "f") [.var 1000]]⟩, ⟨2, false, .app (.sym "q") [.var 1001]⟩]
/-- not p(Z) or r(a) -/
def igY : List ALit := [⟨3, true, .app (.sym "p") [.var 2000]⟩, ⟨4, false, .app (.sym "r") [.const (.sym "a")]⟩]

/-- the resolvent q(V) or r(a), then p(f(V)) or q(V), then not p(f(V)) or r(a) -/
theorem ig_result : resolveInstgen some 20 igX 0 igY 0 = some
    ([⟨false, .app (.sym "q") [.var 3000]⟩, ⟨false, .app (.sym "r") [.const (.sym "a")]⟩],
     [⟨false, .app (.sym "p") [.app (.sym "f") [.var 3000]]⟩, ⟨false, .app (.sym "q") [.var 3000]⟩],
     [⟨true, .app (.sym "p") [.app (.sym "f") [.var 3000]]⟩, ⟨false, .app (.sym "r") [.const (.sym "a")]⟩]) := by
  rfl

/-- **C47, negation of the full statement.** The parents are p(f(X)) or q(U) and not p(Z) or r(a).  The
instance of the first by the unifier is p(f(X)) or q(U) itself; the clause made is p(f(V)) or q(V),
which is true in a structure in which the instance is not. -/
theorem C47_instance_too_special : ∃ r r1 r2, resolveInstgen some 20 igX 0 igY 0 = some (r, r1, r2) ∧
    ∃ M : FO, M.holds r1 ∧ ¬ M.holds (plain igX) := by
  refine ⟨_, _, _, ig_result, ⟨Bool, fun _ => true, fun _ as => as.headD true,
    fun c as => if c = .sym "p" then as.headD true = true else as.headD true = false⟩, ?_, ?_⟩
  · intro ρ
    cases e : ρ 3000 with
    | true => exact ⟨_, List.mem_cons_self, by simp [FO.atom, FO.eval, FO.evalL, e]⟩
    | false => exact ⟨_, List.mem_cons_of_mem _ List.mem_cons_self, by simp [FO.atom, FO.eval, FO.evalL, e]⟩
  · intro h
    obtain ⟨l, hl, ht⟩ := h (fun v => decide (v = 1001))
    simp only [plain, igX, List.map_cons, List.map_nil, List.mem_cons, List.not_mem_nil, or_false] at hl
    rcases hl with rfl | rfl
    · simp [FO.atom, FO.eval, FO.evalL] at ht
    · simp [FO.atom, FO.eval, FO.evalL] at ht

/-- the hypotheses of the first two theorems, for these clauses -/
example : (∀ v ∈ vars (.app (.sym "p") [.app (.sym "f") [.var 1000]]), v < 4000) ∧
    (∀ l ∈ igX, ∀ v ∈ vars l.atom, v < 4000) ∧
    (∃ st, unify 20 St.empty (.app (.sym "p") [.app (.sym "f") [.var 1000]]) (.app (.sym "p") [.var 2000]) = some (true, st) ∧
      LeftOver st (st.set 1001 (.var 4000)) ∧ ∃ r s', instgenLits some 20 (st.set 1001 (.var 4000)) igX = .ok r s') := by
  refine ⟨by simp [vars, varsL], by simp [igX, vars, varsL], _, rfl, ?_, _, _, rfl⟩
  intro v t e
  simp only [St.set] at e
  split at e
  · simp only [Option.some.injEq] at e
    rename_i hv
    exact .inr ⟨by omega, 0, by omega, e.symm⟩
  · exact .inl e

end Gkc.Props
