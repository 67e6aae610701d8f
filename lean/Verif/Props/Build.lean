import Verif.BuildLemmas
import Verif.Props.Unify
/- Property theorems C30: clause copies. -/
namespace Gkc.Props
open Gkc Term

/-- bindings as unification leaves them: no cycle, only ordinary variables (numbers below 4000) -/
structure GoodBindings (st : St) : Prop where
  acyclic : Acyclic st.b
  range : ∀ v t, st.b v = some t → v < 4000 ∧ ∀ w ∈ vars t, w < 4000

/-- the substitution the bindings stand for: bound variables are equal to their values, unbound
ones stand for themselves -/
structure StandsFor (st : St) (θ : Nat → Term) : Prop where
  bound : ∀ v t, st.b v = some t → θ v = subst θ t
  free : ∀ v, st.b v = none → θ v = .var v

theorem standsFor_exists {st : St} (h : GoodBindings st) : ∃ θ, StandsFor st θ := by
  obtain ⟨θ, hd, _⟩ := den_of_acyclic h.range h.acyclic
  exact ⟨θ, ⟨hd.bound, hd.free⟩⟩

/-- the variables of an instance of a clause -/
def clVars (cl : List Lit) : List Nat := cl.flatMap (fun l => vars l.atom)

theorem clVars_mem {cl : List Lit} {v : Nat} : v ∈ clVars cl ↔ ∃ l ∈ cl, v ∈ vars l.atom := by
  simp [clVars]

theorem varsL_map {cl : List Lit} {θ : Nat → Term} :
    varsL (cl.map (fun l => subst θ l.atom)) = clVars (cl.map (Lit.subst θ)) := by
  induction cl with
  | nil => rfl
  | cons l ls ih => simp [clVars, Lit.subst] at ih ⊢; exact ih

theorem renT_map {bank : Nat} {names : List Nat} : ∀ {cl r : List Lit} {θ : Nat → Term},
    r.map Lit.neg = cl.map Lit.neg →
    normL some (substL (renT bank names) (cl.map (fun l => subst θ l.atom))) = some (r.map Lit.atom) →
    r = (cl.map (Lit.subst θ)).map (Lit.subst (renT bank names)) := by
  intro cl
  induction cl with
  | nil => intro r θ h _; simpa using h
  | cons l ls ih =>
    intro r θ h1 h2
    cases r with
    | nil => simp at h1
    | cons a r =>
      simp only [List.map_cons, List.cons.injEq] at h1
      rw [normL_some] at h2
      simp only [List.map_cons, substL, Option.some.injEq, List.cons.injEq] at h2
      have := ih (θ := θ) h1.2 (by rw [normL_some]; exact congrArg some h2.2)
      rw [this]
      simp only [List.map_cons, List.cons.injEq, and_true]
      cases a; simp_all [Lit.subst]

/-- C30: copying a clause ends, and a copy is the instance of the clause with its variables
renamed one-to-one to the numbers 0,1,2,... of the requested bank, all of them used. -/
theorem C30_copy_is_variant (bank n : Nat) (st : St) (cl r : List Lit) (s' : BSt)
    (hg : GoodBindings st) (hv : ∀ l ∈ cl, ∀ w ∈ vars l.atom, w < 4000)
    (h : copyCl some bank n st cl = .ok r s') (θ : Nat → Term) (hθ : StandsFor st θ) :
    ∃ ren : Nat → Nat,
      r = (cl.map (Lit.subst θ)).map (Lit.subst (fun v => .var (ren v))) ∧
      (∀ v ∈ clVars (cl.map (Lit.subst θ)), ∀ w ∈ clVars (cl.map (Lit.subst θ)), ren v = ren w → v = w) ∧
      (∀ v ∈ clVars (cl.map (Lit.subst θ)), bank * 1000 ≤ ren v ∧ ren v < bank * 1000 + s'.vc) ∧
      (∀ k < s'.vc, ∃ v ∈ clVars (cl.map (Lit.subst θ)), ren v = bank * 1000 + k) ∧ s'.vc ≤ 1000 := by
  have hd : Den st.b θ := ⟨hθ.bound, hθ.free, hg.range⟩
  obtain ⟨h1, names, hi, _, hn, hvs, hb⟩ := copyLits_spec hd n cl [] ⟨st, 0⟩ r s' BInv.init hv h
  rw [varsL_map] at hvs hb
  refine ⟨fun v => bank * 1000 + names.idxOf v, renT_map h1 hn, ?_, ?_, ?_, ?_⟩
  · intro v hv' w hw' e
    have hv1 := hvs v hv'
    have hw1 := hvs w hw'
    have e' : names.idxOf v = names.idxOf w := by simpa using e
    have a1 : names[names.idxOf v]'(List.idxOf_lt_length_iff.2 hv1) = v := List.getElem_idxOf _
    have a2 : names[names.idxOf w]'(List.idxOf_lt_length_iff.2 hw1) = w := List.getElem_idxOf _
    rw [← a1, ← a2]; congr 1
  · intro v hv'
    have := List.idxOf_lt_length_iff.2 (hvs v hv')
    have := hi.vc
    exact ⟨by show bank * 1000 ≤ bank * 1000 + names.idxOf v; omega, by show bank * 1000 + names.idxOf v < _; omega⟩
  · intro k hk
    have hk' : k < names.length := by have := hi.vc; omega
    refine ⟨names[k], ?_, ?_⟩
    · rcases hb _ (List.getElem_mem hk') with h | h
      · cases h
      · exact h
    · show bank * 1000 + names.idxOf names[k] = _
      have h1 : names.idxOf names[k] < names.length := List.idxOf_lt_length_iff.2 (List.getElem_mem hk')
      have h2 : names[names.idxOf names[k]]'h1 = names[k] := List.getElem_idxOf _
      rw [(List.getElem_inj hi.nodup).1 h2]
  · rw [hi.vc]; exact hi.le

/-- C30: copying ends whatever the bindings. -/
theorem C30_copy_terminates (ev : Term → Option Term) (bank : Nat) (st : St) (cl : List Lit)
    (hg : GoodBindings st) (hv : ∀ l ∈ cl, ∀ w ∈ vars l.atom, w < 4000) :
    ∃ n0, ∀ n, n0 ≤ n → copyCl ev bank n st cl ≠ .fuel := by
  obtain ⟨θ, hθ⟩ := standsFor_exists hg
  exact copyLits_total ⟨hθ.bound, hθ.free, hg.range⟩ hg.acyclic cl [] ⟨st, 0⟩ BInv.init hv

/-- C30: a copy is refused exactly when the instance has more than 1000 distinct variables
(when the copy is not refused, by `C30_copy_is_variant` there are at most 1000). -/
theorem C30_refused_only_for_many_variables (bank n : Nat) (st : St) (cl : List Lit)
    (hg : GoodBindings st) (hv : ∀ l ∈ cl, ∀ w ∈ vars l.atom, w < 4000)
    (h : copyCl some bank n st cl = .illegal) (θ : Nat → Term) (hθ : StandsFor st θ) :
    ∃ l : List Nat, l.Nodup ∧ 1000 < l.length ∧ ∀ v ∈ l, v ∈ clVars (cl.map (Lit.subst θ)) := by
  have hd : Den st.b θ := ⟨hθ.bound, hθ.free, hg.range⟩
  obtain ⟨l, h1, h2, h3⟩ := copyLits_illegal (fun t => by simp) hd n cl [] ⟨st, 0⟩ BInv.init hv h
  refine ⟨l, h1, h2, fun v hv' => ?_⟩
  rw [← varsL_map]
  rcases h3 v hv' with h | h
  · cases h
  · exact h

/-- C30: without evaluation a clause is replaced by a truth value only when one of its atoms
is that truth constant. -/
theorem C30_truth_only_from_constants (bank n : Nat) (st : St) (cl : List Lit) (b : Bool)
    (hg : GoodBindings st) (hv : ∀ l ∈ cl, ∀ w ∈ vars l.atom, w < 4000)
    (h : copyCl some bank n st cl = .truth b) (θ : Nat → Term) (hθ : StandsFor st θ) :
    ∃ l ∈ cl, subst θ l.atom = .const (if b then aTrue else aFalse) := by
  have hd : Den st.b θ := ⟨hθ.bound, hθ.free, hg.range⟩
  obtain ⟨l, hl, names, e⟩ := copyLits_truth hd n cl [] ⟨st, 0⟩ b BInv.init hv h
  refine ⟨l, hl, ?_⟩
  rw [norm_some] at e
  simp only [Option.some.injEq] at e
  cases ht : subst θ l.atom with
  | var v => rw [ht] at e; simp [renT] at e
  | const c => rw [ht] at e; simpa using e
  | app f as => rw [ht] at e; simp at e

/-- C30: copies into different banks share no variable. -/
theorem C30_banks_disjoint (b1 b2 n1 n2 : Nat) (hb : b1 ≠ b2) (st1 st2 : St) (c1 c2 r1 r2 : List Lit)
    (s1 s2 : BSt) (hg1 : GoodBindings st1) (hg2 : GoodBindings st2)
    (hv1 : ∀ l ∈ c1, ∀ w ∈ vars l.atom, w < 4000) (hv2 : ∀ l ∈ c2, ∀ w ∈ vars l.atom, w < 4000)
    (h1 : copyCl some b1 n1 st1 c1 = .ok r1 s1) (h2 : copyCl some b2 n2 st2 c2 = .ok r2 s2) :
    ∀ v ∈ clVars r1, v ∉ clVars r2 := by
  have key : ∀ (b n : Nat) (st : St) (c r : List Lit) (s : BSt), GoodBindings st →
      (∀ l ∈ c, ∀ w ∈ vars l.atom, w < 4000) → copyCl some b n st c = .ok r s →
      ∀ v ∈ clVars r, b * 1000 ≤ v ∧ v < b * 1000 + 1000 := by
    intro b n st c r s hg hv h v hvr
    obtain ⟨θ, hθ⟩ := standsFor_exists hg
    obtain ⟨ren, hr, _, h3, _, h5⟩ := C30_copy_is_variant b n st c r s hg hv h θ hθ
    obtain ⟨l, hl, hvl⟩ := clVars_mem.1 hvr
    rw [hr] at hl
    obtain ⟨l0, hl0, rfl⟩ := List.mem_map.1 hl
    simp only [Lit.subst] at hvl
    obtain ⟨w, hw, hvw⟩ := mem_vars_subst.1 hvl
    simp only [vars_var, List.mem_singleton] at hvw
    subst hvw
    have := h3 w (clVars_mem.2 ⟨l0, hl0, hw⟩)
    omega
  intro v hm1 hm2
  have a1 := key b1 n1 st1 c1 r1 s1 hg1 hv1 h1 v hm1
  have a2 := key b2 n2 st2 c2 r2 s2 hg2 hv2 h2 v hm2
  omega

/-- C30: clearing the variable stack to its earlier height takes back everything a copy did. -/
theorem C30_copy_undone (ev : Term → Option Term) (bank n : Nat) (st : St) (cl r : List Lit) (s' : BSt)
    (h : copyCl ev bank n st cl = .ok r s') : s'.st.clearTo st.trail.length = st :=
  (copyLits_ext cl ⟨st, 0⟩ r s' h).clearTo

/-- example: `p(?5,?7) | -q(?7)` with `?5 := f(?7)` copied into bank 2 -/
example : ∃ s', copyCl some 2 10 (St.empty.set 5 (ap "f" [.var 7]))
    [⟨false, ap "p" [.var 5, .var 7, .var 9]⟩, ⟨true, ap "q" [.var 9]⟩] =
    .ok [⟨false, ap "p" [ap "f" [.var 2000], .var 2000, .var 2001]⟩, ⟨true, ap "q" [.var 2001]⟩] s' ∧ s'.vc = 2 :=
  ⟨_, rfl, rfl⟩

example : GoodBindings (St.empty.set 5 (ap "f" [.var 7])) := by
  refine ⟨⟨fun v => if v = 5 then 1 else 0, ?_⟩, ?_⟩
  · rintro v w ⟨t, ht, hw⟩
    simp only [St.set, St.empty] at ht
    split at ht
    · rename_i e; subst e; cases ht; simp [ap] at hw; subst hw; simp
    · cases ht
  · intro v t ht
    simp only [St.set, St.empty] at ht
    split at ht
    · rename_i e; subst e; cases ht; simp [ap]
    · cases ht

/-- Finding: with evaluation on, one atom that evaluates to false makes the whole copied clause
false (Reasoner/build.c:258), though the clause has another literal: the clause is lost. -/
theorem C30_evaluated_false_loses_clause : ∃ (ev : Term → Option Term) (cl : List Lit),
    cl.length = 2 ∧ copyCl ev 1 10 St.empty cl = .truth false :=
  ⟨fun t => if t = ap "$less" [.const (.int 2), .const (.int 1)] then some (.const aFalse) else some t,
   [⟨false, ap "$less" [.const (.int 2), .const (.int 1)]⟩, ⟨false, ap "p" [.var 1]⟩], rfl, rfl⟩

end Gkc.Props
