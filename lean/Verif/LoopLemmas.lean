import Verif.Loop
import Verif.Complete
import Verif.Props.Saturate
import Verif.Props.Subsume
/- Lemmas for C61: what one inference, one cut and one subsumption test leave covered. -/
namespace Gkc.Loop
open Gkc Term Complete
open Gkc.Props (Stored plain without without_eq ClauseOf clVars clVars_mem Mgu Unifier SubsumesWith AtomsOk)

/-! ### Substitutions -/

/-- a renaming can be taken back where it is one-to-one -/
theorem unrename {V : Nat → Prop} {ren : Nat → Nat} (hi : ∀ v w, V v → V w → ren v = ren w → v = w) (ρ : Nat → Term) :
    ∃ ρ' : Nat → Term, ∀ v, V v → ρ' (ren v) = ρ v := by
  classical
  refine ⟨fun w => if h : ∃ v, V v ∧ ren v = w then ρ h.choose else .var w, fun v hv => ?_⟩
  have h : ∃ u, V u ∧ ren u = ren v := ⟨v, hv, rfl⟩
  simp only [dif_pos h]
  rw [hi _ _ h.choose_spec.1 hv h.choose_spec.2]

theorem lit_congr {l : Lit} {σ τ : Nat → Term} (h : ∀ v ∈ vars l.atom, σ v = τ v) : l.subst σ = l.subst τ := by
  simp only [Lit.subst]
  rw [subst_congr h]

/-- instances of the clause that was collected contain instances of the clause that was stored -/
theorem clauseOf_inst {rest r : List Lit} (h : ClauseOf rest r) (ρ : Nat → Term) :
    ∃ ρ' : Nat → Term, ∀ l ∈ r, l.subst ρ' ∈ rest.map (Lit.subst ρ) := by
  obtain ⟨ren, hi, hm, _⟩ := h
  obtain ⟨ρ', hρ⟩ := unrename (V := fun v => v ∈ clVars rest) (fun v w hv hw => hi v hv w hw) ρ
  refine ⟨ρ', fun l hl => ?_⟩
  obtain ⟨k, hk, rfl⟩ := List.mem_map.1 (hm l hl)
  rw [Complete.Lit.subst_subst]
  refine List.mem_map.2 ⟨k, hk, ?_⟩
  apply lit_congr
  intro v hv
  simp only [subst_var]
  exact (hρ v (clVars_mem.2 ⟨k, hk, hv⟩)).symm

theorem clauseOf_length {rest r : List Lit} (h : ClauseOf rest r) : r.length ≤ rest.length := by
  obtain ⟨ren, _, hm, _, hn, _⟩ := h
  have hn' : r.Nodup := List.Nodup.of_map _ hn
  have := (hn'.subperm hm).length_le
  simpa using this

theorem Cov.clauseOf {P : List Lit → Prop} {rest r : List Lit} (h : ClauseOf rest r) (hc : Covers P r) (ρ : Nat → Term) :
    Cov P rest.length (rest.map (Lit.subst ρ)) := by
  obtain ⟨ρ', hρ⟩ := clauseOf_inst h ρ
  exact (hc ρ').mono (fun _ h => h) (clauseOf_length h) (fun l hl => by
    obtain ⟨k, hk, rfl⟩ := List.mem_map.1 hl
    exact hρ k hk)

/-- what was dropped as a tautology is one -/
theorem taut_collected {bank : Nat} {Ls : List Lit} (h : CollectedTaut some bank Ls) (ha : ∀ l ∈ Ls, isRec l.atom = true) :
    Taut Ls := by
  obtain ⟨Ls', names, Ns, hnd, hs, hB, l, hl, hT⟩ := h.shape
  have hN : Ns = Ls'.map (Lit.subst (renT bank names)) := by
    clear hT hl hs
    induction hB with
    | nil => rfl
    | cons h _ ih =>
      rw [norm_some] at h
      simp only [Option.some.injEq] at h
      rename_i l l' ls ls' _
      simp only [List.map_cons, List.cons.injEq]
      refine ⟨?_, ih⟩
      obtain ⟨h1, h2, _⟩ := h
      cases l'
      simp only at h1 h2
      rw [h1, ← h2]; rfl
  have rec' : ∀ k ∈ Ns, isRec k.atom = true := by
    intro k hk
    rw [hN] at hk
    obtain ⟨k0, hk0, rfl⟩ := List.mem_map.1 hk
    have := ha k0 (hs k0 hk0)
    revert this
    cases e : k0.atom <;> simp [isRec, Lit.subst, e]
  rcases hT with hT | ⟨k, hk, hT⟩
  · exfalso
    have := rec' l hl
    rcases hT with ⟨_, e⟩ | ⟨_, e⟩ <;> rw [e] at this <;> simp [isRec] at this
  · subst hN
    obtain ⟨l0, hl0, rfl⟩ := List.mem_map.1 hl
    obtain ⟨k0, hk0, rfl⟩ := List.mem_map.1 hk
    obtain ⟨hn, he⟩ := hT
    have hinj : ∀ v w, v ∈ names → w ∈ names → bank * 1000 + names.idxOf v = bank * 1000 + names.idxOf w → v = w := by
      intro v w hv hw e
      have e' : names.idxOf v = names.idxOf w := by omega
      have a1 : names[names.idxOf v]'(List.idxOf_lt_length_iff.2 hv) = v := List.getElem_idxOf _
      have a2 : names[names.idxOf w]'(List.idxOf_lt_length_iff.2 hw) = w := List.getElem_idxOf _
      rw [← a1, ← a2]; congr 1
    obtain ⟨ρ', hρ⟩ := unrename (V := fun v => v ∈ names) hinj Term.var
    have back : ∀ k ∈ Ls', subst ρ' (subst (renT bank names) k.atom) = k.atom := by
      intro k hk
      rw [subst_subst]
      conv => rhs; rw [← subst_id k.atom]
      apply subst_congr
      intro v hv
      simp only [renT, subst_var]
      exact hρ v (hB.vars k hk v hv)
    have e : l0.atom = k0.atom := by
      rw [← back l0 hl0, ← back k0 hk0]
      simp only [Lit.subst] at he
      rw [he]
    have hn' : l0.neg ≠ k0.neg := hn
    refine ⟨l0.atom, ?_, ?_⟩
    · cases h0 : l0.neg with
      | false => exact (show (⟨false, l0.atom⟩ : Lit) = l0 by cases l0; simp_all) ▸ hs l0 hl0
      | true =>
        have : k0.neg = false := by cases hk : k0.neg <;> simp_all
        exact (show (⟨false, l0.atom⟩ : Lit) = k0 by cases k0; simp_all) ▸ hs k0 hk0
    · cases h0 : l0.neg with
      | true => exact (show (⟨true, l0.atom⟩ : Lit) = l0 by cases l0; simp_all) ▸ hs l0 hl0
      | false =>
        have : k0.neg = true := by cases hk : k0.neg <;> simp_all
        exact (show (⟨true, l0.atom⟩ : Lit) = k0 by cases k0; simp_all) ▸ hs k0 hk0

/-! ### Newly built clauses -/

@[simp] theorem fresh_length (ls : List Lit) : (fresh ls).length = ls.length := by simp [fresh]

@[simp] theorem lits_fresh (ls : List Lit) : lits (fresh ls) = ls := (Props.tagPos_new ls).1

theorem lits_plain (cl : List ALit) : lits cl = plain cl := rfl

theorem fresh_get {ls : List Lit} {i : Nat} {x : ALit} (h : (fresh ls)[i]? = some x) : x.addr = i ∧ ls[i]? = some x.lit := by
  simp only [fresh, List.getElem?_mapIdx, Option.map_eq_some_iff] at h
  obtain ⟨l, hl, rfl⟩ := h
  exact ⟨rfl, hl⟩

theorem fresh_mem {ls : List Lit} {x : ALit} (h : x ∈ fresh ls) : x.lit ∈ ls := by
  obtain ⟨i, hi⟩ := List.mem_iff_getElem?.1 h
  exact List.mem_of_getElem? (fresh_get hi).2

theorem fresh_getElem? {ls : List Lit} {i : Nat} {l : Lit} (h : ls[i]? = some l) : (fresh ls)[i]? = some ⟨i, l.neg, l.atom⟩ := by
  simp [fresh, List.getElem?_mapIdx, h]

theorem fresh_stored {ls : List Lit} (h : ∀ l ∈ ls, ∀ w ∈ vars l.atom, w < 4000) : Stored (fresh ls) := by
  refine ⟨fun l hl => h l.lit (fresh_mem hl), fun l hl k hk e => ?_⟩
  obtain ⟨i, hi⟩ := List.mem_iff_getElem?.1 hl
  obtain ⟨j, hj⟩ := List.mem_iff_getElem?.1 hk
  have h1 := (fresh_get hi).1
  have h2 := (fresh_get hj).1
  have : i = j := by omega
  subst this
  rw [hi] at hj
  cases hj
  rfl

/-- without the literal at one address: without that literal -/
theorem without_fresh {ls : List Lit} {i : Nat} {x : ALit} (h : (fresh ls)[i]? = some x) :
    ∀ l ∈ without (fresh ls) x, l ∈ ls.eraseIdx i := by
  intro l hl
  simp only [without, plain, List.mem_map, List.mem_filter, decide_eq_true_eq] at hl
  obtain ⟨k, ⟨hk, hne⟩, rfl⟩ := hl
  obtain ⟨j, hj⟩ := List.mem_iff_getElem?.1 hk
  obtain ⟨h1, h2⟩ := fresh_get hj
  have h3 := (fresh_get h).1
  obtain ⟨hlt, e⟩ := List.getElem?_eq_some_iff.1 h2
  exact List.mem_eraseIdx_iff_getElem.2 ⟨j, hlt, by omega, e⟩

theorem without_fresh_length {ls : List Lit} {i : Nat} {x : ALit} (h : (fresh ls)[i]? = some x) :
    (without (fresh ls) x).length ≤ ls.length - 1 := by
  have hx : x ∈ fresh ls := List.mem_of_getElem? h
  have h1 : (without (fresh ls) x).length = ((fresh ls).filter fun l => decide (l.addr ≠ x.addr)).length := by
    simp [without, plain]
  rw [h1]
  have := List.length_filter_lt_length_iff_exists (p := fun l : ALit => decide (l.addr ≠ x.addr)) (l := fresh ls) |>.2 ⟨x, hx, by simp⟩
  rw [fresh_length] at this
  omega

/-! ### One inference -/

/-- the result of an inference is not lost and covered -/
def Handled (P : List Lit → Prop) : Inf → Prop
  | .fuel => False
  | .none => True
  | .dropped taut => taut = true
  | .ok r => Covers P r

/-- Resolution of a clause with variables of one bank with a clause with variables of another: every
instance of the resolution is covered. -/
theorem resolve_cov {P : List Lit → Prop} {n : Nat} {gl yl : List Lit} {i j : Nat} (h : Handled P (resolveInf some n (fresh gl) i (fresh yl) j))
    (hg : ∀ l ∈ gl, isRec l.atom = true ∧ ∀ w ∈ vars l.atom, w < 2000)
    (hy : ∀ l ∈ yl, isRec l.atom = true ∧ ∀ w ∈ vars l.atom, 2000 ≤ w ∧ w < 4000)
    (hi : i < gl.length) (hj : j < yl.length) (hn : gl[i].neg ≠ yl[j].neg) {σ τ : Nat → Term}
    (e : subst σ gl[i].atom = subst τ yl[j].atom) :
    ∃ k, Cov P k ((gl.eraseIdx i).map (Lit.subst σ) ++ (yl.eraseIdx j).map (Lit.subst τ)) := by
  have hxs : Stored (fresh gl) := fresh_stored fun l hl w hw => by have := (hg l hl).2 w hw; omega
  have hys : Stored (fresh yl) := fresh_stored fun l hl w hw => ((hy l hl).2 w hw).2
  let υ : Nat → Term := fun v => if v < 2000 then σ v else τ v
  have ug : ∀ l ∈ gl, l.subst υ = l.subst σ := fun l hl => lit_congr fun v hv => by simp [υ, (hg l hl).2 v hv]
  have uy : ∀ l ∈ yl, l.subst υ = l.subst τ := fun l hl => lit_congr fun v hv => by
    have := (hy l hl).2 v hv
    simp only [υ]
    rw [if_neg (by omega)]
  have hex := fresh_getElem? (List.getElem?_eq_getElem hi)
  have hey := fresh_getElem? (List.getElem?_eq_getElem hj)
  have hu : subst υ gl[i].atom = subst υ yl[j].atom := by
    have h1 := congrArg Lit.atom (ug _ (List.getElem_mem hi))
    have h2 := congrArg Lit.atom (uy _ (List.getElem_mem hj))
    simp only [Lit.subst] at h1 h2
    rw [h1, h2, e]
  have hnn : resolveInf some n (fresh gl) i (fresh yl) j ≠ .none := by
    intro hc
    simp only [resolveInf, hex, hey] at hc
    split at hc
    · rename_i hb
      exact hn (by simpa using hb)
    · split at hc
      · cases hc
      · rename_i st eu
        exact Props.C08_unify_fails_only_without_unifier _ _ _ _ eu ⟨υ, hu⟩
      · rename_i st eu
        revert hc
        cases resolveLits some 3 n st (fresh gl) i (fresh yl) j <;> simp [Asm.inf]
  have hnf : resolveInf some n (fresh gl) i (fresh yl) j ≠ .fuel := by
    intro hc
    rw [hc] at h
    exact h
  obtain ⟨x, y, θ, st, ex, ey, _, hm, hd, ho⟩ := Props.resolveInf_cases hxs hys rfl hnn hnf
  have hxx := ex
  have hyy := ey
  rw [hex] at ex
  rw [hey] at ey
  cases ex
  cases ey
  obtain ⟨ρ, hρ⟩ := hm.2 υ hu
  have hsub : ∀ l ∈ ((without (fresh gl) ⟨i, gl[i].neg, gl[i].atom⟩ ++ without (fresh yl) ⟨j, yl[j].neg, yl[j].atom⟩).map (Lit.subst θ)).map (Lit.subst ρ),
      l ∈ (gl.eraseIdx i).map (Lit.subst σ) ++ (yl.eraseIdx j).map (Lit.subst τ) := by
    intro l hl
    simp only [List.map_map, List.mem_map, Function.comp_apply] at hl
    obtain ⟨k, hk, rfl⟩ := hl
    have e1 : (k.subst θ).subst ρ = k.subst υ := by
      rw [Complete.Lit.subst_subst]
      exact lit_congr fun v _ => (hρ v).symm
    rw [e1]
    rcases List.mem_append.1 hk with hk | hk
    · have := without_fresh hxx k hk
      rw [ug k (List.mem_of_mem_eraseIdx this)]
      exact List.mem_append_left _ (List.mem_map_of_mem this)
    · have := without_fresh hyy k hk
      rw [uy k (List.mem_of_mem_eraseIdx this)]
      exact List.mem_append_right _ (List.mem_map_of_mem this)
  have hrec : ∀ l ∈ (without (fresh gl) ⟨i, gl[i].neg, gl[i].atom⟩ ++ without (fresh yl) ⟨j, yl[j].neg, yl[j].atom⟩).map (Lit.subst θ),
      isRec l.atom = true := by
    intro l hl
    obtain ⟨k, hk, rfl⟩ := List.mem_map.1 hl
    have hr : isRec k.atom = true := by
      rcases List.mem_append.1 hk with hk | hk
      · exact (hg k (List.mem_of_mem_eraseIdx (without_fresh hxx k hk))).1
      · exact (hy k (List.mem_of_mem_eraseIdx (without_fresh hyy k hk))).1
    revert hr
    cases e : k.atom <;> simp [isRec, Lit.subst, e]
  cases hres : resolveInf some n (fresh gl) i (fresh yl) j with
  | fuel => exact absurd hres hnf
  | none => exact absurd hres hnn
  | dropped t =>
    rw [hres] at h ho
    have ht : t = true := h
    subst ht
    have hT := resolveLits_taut (y := ⟨j, yl[j].neg, yl[j].atom⟩) hd (List.mem_of_getElem? hxx) hxs.vars hys.vars (Props.Asm.inf_taut ho)
    rw [← without_eq, ← without_eq] at hT
    exact ⟨0, .inl (((taut_collected hT hrec).subst ρ).mono hsub)⟩
  | ok r =>
    rw [hres] at h ho
    obtain ⟨s, hr⟩ := Props.Asm.inf_ok ho
    have hC := Props.clauseOf_of_collected (resolveLits_spec hd (List.mem_of_getElem? hxx) (List.mem_of_getElem? hyy) hxs.vars hys.vars hr)
    rw [← without_eq, ← without_eq] at hC
    exact ⟨_, (Cov.clauseOf hC h ρ).mono (fun _ h => h) (Nat.le_refl _) hsub⟩

/-- Factoring: every instance of a clause in which two literals fall together is covered by a shorter clause. -/
theorem factor_cov {P : List Lit → Prop} {n : Nat} {gl : List Lit} {i j : Nat} (h : Handled P (factorInf some n (fresh gl) i j))
    (hg : ∀ l ∈ gl, isRec l.atom = true ∧ ∀ w ∈ vars l.atom, w < 4000)
    (hij : i < j) (hj : j < gl.length) {σ : Nat → Term} (e : gl[i].subst σ = gl[j].subst σ) :
    Cov P (gl.length - 1) (gl.map (Lit.subst σ)) := by
  have hxs : Stored (fresh gl) := fresh_stored fun l hl => (hg l hl).2
  have hi : i < gl.length := by omega
  have hex := fresh_getElem? (List.getElem?_eq_getElem hi)
  have hey := fresh_getElem? (List.getElem?_eq_getElem hj)
  have hneg : gl[i].neg = gl[j].neg := by have := congrArg Lit.neg e; exact this
  have hu : subst σ gl[i].atom = subst σ gl[j].atom := by have := congrArg Lit.atom e; exact this
  have h1 : isRec gl[i].atom = true := (hg _ (List.getElem_mem hi)).1
  have h2 : isRec gl[j].atom = true := (hg _ (List.getElem_mem hj)).1
  simp only [factorInf, hij, if_true, hex, hey, hneg, bne_self_eq_false, Bool.false_eq_true, if_false, h1, h2, Bool.and_self] at h
  split at h
  · exact absurd h (by simp [Handled])
  · rename_i st eu
    exact absurd ⟨σ, hu⟩ (Props.C08_unify_fails_only_without_unifier _ _ _ _ eu)
  · rename_i st eu
    have mx := List.mem_of_getElem? hex
    obtain ⟨θ, hd, _, hm⟩ := unify_den eu (hg _ (List.getElem_mem hi)).2 (hg _ (List.getElem_mem hj)).2
    have hρ := hm σ hu
    have hsub : ∀ l ∈ ((without (fresh gl) ⟨i, gl[i].neg, gl[i].atom⟩).map (Lit.subst θ)).map (Lit.subst σ), l ∈ gl.map (Lit.subst σ) := by
      intro l hl
      simp only [List.map_map, List.mem_map, Function.comp_apply] at hl
      obtain ⟨k, hk, rfl⟩ := hl
      have e1 : (k.subst θ).subst σ = k.subst σ := by
        rw [Complete.Lit.subst_subst]
        exact lit_congr fun v _ => (hρ v).symm
      rw [e1]
      exact List.mem_map_of_mem (List.mem_of_mem_eraseIdx (without_fresh hex k hk))
    have hrec : ∀ l ∈ (without (fresh gl) ⟨i, gl[i].neg, gl[i].atom⟩).map (Lit.subst θ), isRec l.atom = true := by
      intro l hl
      obtain ⟨k, hk, rfl⟩ := List.mem_map.1 hl
      have hr : isRec k.atom = true := (hg k (List.mem_of_mem_eraseIdx (without_fresh hex k hk))).1
      revert hr
      cases e : k.atom <;> simp [isRec, Lit.subst, e]
    cases hf : factorLits some 3 n st (fresh gl) i with
    | fuel => rw [hf] at h; exact absurd h (by simp [Handled, Asm.inf])
    | illegal => rw [hf] at h; exact absurd h (by simp [Handled, Asm.inf])
    | taut =>
      have hT := factorLits_taut (x := ⟨i, gl[i].neg, gl[i].atom⟩) hd hxs.vars hf
      rw [← without_eq] at hT
      exact .inl (((taut_collected hT hrec).subst σ).mono hsub)
    | ok r s =>
      rw [hf] at h
      have hC := Props.clauseOf_of_collected (factorLits_spec (x := ⟨i, gl[i].neg, gl[i].atom⟩) hd mx hxs.vars hf)
      rw [← without_eq] at hC
      refine (Cov.clauseOf hC h σ).mono (fun _ h => h) ?_ hsub
      rw [List.length_map]
      exact without_fresh_length hex

/-! ### What the clauses look like -/

/-- all constants and function symbols are in `S` -/
def Over (S : Const → Prop) (t : Term) : Prop := ∀ c, some c ∈ syms t → S c

theorem mem_symsL {x : Option Const} : ∀ {as : List Term}, x ∈ symsL as ↔ ∃ a ∈ as, x ∈ syms a
  | [] => by simp [symsL]
  | a :: as => by simp [symsL, mem_symsL (as := as)]

theorem over_app {S : Const → Prop} {f : Const} {as : List Term} : Over S (.app f as) ↔ S f ∧ ∀ a ∈ as, Over S a := by
  unfold Over
  simp only [syms, List.mem_cons, Option.some.injEq, mem_symsL]
  constructor
  · intro h
    exact ⟨h f (.inl rfl), fun a ha c hc => h c (.inr ⟨a, ha, hc⟩)⟩
  · rintro ⟨h1, h2⟩ c (rfl | ⟨a, ha, hc⟩)
    · exact h1
    · exact h2 a ha c hc

theorem over_subst {S : Const → Prop} {θ : Nat → Term} (hθ : ∀ v, Over S (θ v)) : ∀ {t : Term}, Over S t → Over S (subst θ t) := by
  intro t
  induction t using Term.ind with
  | hv v => intro _; simpa using hθ v
  | hc c => intro h; simpa using h
  | ha f as ih =>
    intro h
    rw [over_app] at h
    rw [subst_app, over_app]
    refine ⟨h.1, fun b hb => ?_⟩
    obtain ⟨a, ha, rfl⟩ := List.mem_map.1 hb
    exact ih a ha (h.2 a ha)

theorem over_var {S : Const → Prop} {v : Nat} : Over S (.var v) := by
  intro c h
  simp [syms] at h

mutual
/-- constants and function symbols outside of `S` replaced by a variable, with what is below them -/
noncomputable def prune (S : Const → Prop) : Term → Term
  | .var v => .var v
  | .const c => open Classical in if S c then .const c else .var 0
  | .app f as => open Classical in if S f then .app f (pruneL S as) else .var 0
/-- the same in a list -/
noncomputable def pruneL (S : Const → Prop) : List Term → List Term
  | [] => []
  | a :: as => prune S a :: pruneL S as
end

theorem pruneL_eq {S : Const → Prop} : ∀ as : List Term, pruneL S as = as.map (prune S)
  | [] => rfl
  | a :: as => by rw [pruneL, pruneL_eq as, List.map_cons]

theorem prune_subst {S : Const → Prop} (θ : Nat → Term) {t : Term} : Over S t → prune S (subst θ t) = subst (fun v => prune S (θ v)) t := by
  induction t using Term.ind with
  | hv v => intro _; simp
  | hc c => intro h; simp [prune, h c (by simp [syms])]
  | ha f as ih =>
    intro h
    rw [over_app] at h
    rw [subst_app, subst_app, prune, if_pos h.1, pruneL_eq, List.map_map]
    congr 1
    exact List.map_congr_left fun a ha => ih a ha (h.2 a ha)

theorem over_of_prune {S : Const → Prop} {τ : Nat → Term} {t : Term} : prune S t = subst τ t → Over S t := by
  induction t using Term.ind with
  | hv v => intro _; exact over_var
  | hc c =>
    intro h d hd
    simp only [syms, List.mem_singleton, Option.some.injEq] at hd
    subst hd
    by_contra hn
    simp [prune, hn] at h
  | ha f as ih =>
    intro h
    rw [subst_app, prune] at h
    by_cases hf : S f
    · rw [if_pos hf, pruneL_eq] at h
      simp only [Term.app.injEq, true_and] at h
      rw [over_app]
      refine ⟨hf, fun a ha => ih a ha ?_⟩
      exact List.map_inj_left.1 h a ha
    · rw [if_neg hf] at h
      cases h

/-- a most general unifier brings in no new symbols -/
theorem over_mgu {S : Const → Prop} {θ : Nat → Term} {x y : Term} (hx : Over S x) (hy : Over S y) (e : subst θ x = subst θ y)
    (hm : ∀ τ, subst τ x = subst τ y → ∃ ρ, ∀ v, τ v = subst ρ (θ v)) : ∀ v, Over S (θ v) := by
  intro v
  have hu : subst (fun v => prune S (θ v)) x = subst (fun v => prune S (θ v)) y := by
    rw [← prune_subst θ hx, ← prune_subst θ hy, e]
  obtain ⟨ρ, h⟩ := hm _ hu
  exact over_of_prune (h v)

/-- a literal with a predicate other than `$ans`, symbols of `S` and variables of the four banks -/
def Shape (S : Const → Prop) (l : Lit) : Prop := (∃ p as, l.atom = .app p as ∧ p ≠ .sym "$ans" ∧ Over S l.atom) ∧ ∀ w ∈ vars l.atom, w < 4000

variable {S : Const → Prop}

/-- `Shape` and a short beginning -/
def Okl (S : Const → Prop) (l : Lit) : Prop := Shape S l ∧ Short l.atom

theorem Shape.rec {l : Lit} (h : Shape S l) : isRec l.atom = true := by
  obtain ⟨⟨p, as, e, _⟩, _⟩ := h
  rw [e]; rfl

theorem pred_subst {t : Term} (h : ∃ p as, t = .app p as ∧ p ≠ .sym "$ans" ∧ Over S t) {θ : Nat → Term} (hθ : ∀ v, Over S (θ v)) :
    ∃ p as, subst θ t = .app p as ∧ p ≠ .sym "$ans" ∧ Over S (subst θ t) := by
  obtain ⟨p, as, rfl, hp, ho⟩ := h
  exact ⟨p, as.map (subst θ), by simp, hp, over_subst hθ ho⟩

theorem collected_shape {bank : Nat} {Ls r : List Lit} (h : Collected some bank Ls r) (hb : bank < 4)
    (ha : ∀ l ∈ Ls, ∃ p as, l.atom = .app p as ∧ p ≠ .sym "$ans" ∧ Over S l.atom) : ∀ l ∈ r, Shape S l := by
  obtain ⟨names, Ns, _, hl, hB, hM⟩ := h.shape
  have key : ∀ l ∈ Ns, Shape S l := by
    clear hM h
    induction hB with
    | nil => simp
    | cons hh _ ih =>
      obtain ⟨h1, h2, h3⟩ := hh
      intro k hk
      rcases List.mem_cons.1 hk with rfl | hk
      · rw [norm_some, Option.some.injEq] at h2
        refine ⟨?_, ?_⟩
        · rw [← h2]; exact pred_subst (ha _ List.mem_cons_self) fun _ => over_var
        · intro w hw
          rw [← h2] at hw
          have := (Props.renT_bank hl h3 w hw).2
          omega
      · exact ih (fun l hl => ha l (List.mem_cons_of_mem _ hl)) k hk
  intro l hr
  exact key l ((hM.only l hr).resolve_left (by simp))

theorem resolve_shape {n : Nat} {gl yl : List Lit} {i j : Nat} {r : List Lit} (h : resolveInf some n (fresh gl) i (fresh yl) j = .ok r)
    (hg : ∀ l ∈ gl, Shape S l) (hy : ∀ l ∈ yl, Shape S l) : ∀ l ∈ r, Shape S l := by
  have hxs : Stored (fresh gl) := fresh_stored fun l hl => (hg l hl).2
  have hys : Stored (fresh yl) := fresh_stored fun l hl => (hy l hl).2
  obtain ⟨x, y, θ, st, ex, ey, _, hm, hd, ho⟩ := Props.resolveInf_cases hxs hys h (by simp) (by simp)
  obtain ⟨s, hr⟩ := Props.Asm.inf_ok ho
  have hC := resolveLits_spec hd (List.mem_of_getElem? ex) (List.mem_of_getElem? ey) hxs.vars hys.vars hr
  rw [← without_eq, ← without_eq] at hC
  refine collected_shape hC (by omega) ?_
  intro l hl
  obtain ⟨k, hk, rfl⟩ := List.mem_map.1 hl
  have hov : ∀ {ls : List Lit} {i : Nat} {x : ALit}, (fresh ls)[i]? = some x → (∀ l ∈ ls, Shape S l) → Over S x.atom := by
    intro ls i x ex h
    have : x.lit ∈ ls := by
      rw [← lits_fresh ls]
      exact List.mem_map_of_mem (List.mem_of_getElem? ex)
    obtain ⟨⟨_, _, _, _, h⟩, _⟩ := h _ this
    exact h
  refine pred_subst ?_ (over_mgu (hov ex hg) (hov ey hy) hm.1 hm.2)
  rcases List.mem_append.1 hk with hk | hk
  · exact (hg k (List.mem_of_mem_eraseIdx (without_fresh ex k hk))).1
  · exact (hy k (List.mem_of_mem_eraseIdx (without_fresh ey k hk))).1

theorem factor_shape {n : Nat} {gl : List Lit} {i j : Nat} {r : List Lit} (h : factorInf some n (fresh gl) i j = .ok r)
    (hg : ∀ l ∈ gl, Shape S l) : ∀ l ∈ r, Shape S l := by
  have hxs : Stored (fresh gl) := fresh_stored fun l hl => (hg l hl).2
  simp only [factorInf] at h
  split at h
  · split at h
    · rename_i x y ex ey
      split at h
      · cases h
      · split at h
        · split at h
          · cases h
          · cases h
          · rename_i st eu
            have mx := List.mem_of_getElem? ex
            have my := List.mem_of_getElem? ey
            obtain ⟨θ, hd, heq, hm⟩ := unify_den eu (hxs.vars x mx) (hxs.vars y my)
            obtain ⟨s, hr⟩ := Props.Asm.inf_ok h
            have hC := factorLits_spec hd mx hxs.vars hr
            rw [← without_eq] at hC
            refine collected_shape hC (by omega) ?_
            intro l hl
            obtain ⟨k, hk, rfl⟩ := List.mem_map.1 hl
            have hov : ∀ {i : Nat} {x : ALit}, (fresh gl)[i]? = some x → Over S x.atom := by
              intro i x ex
              have : x.lit ∈ gl := by
                rw [← lits_fresh gl]
                exact List.mem_map_of_mem (List.mem_of_getElem? ex)
              obtain ⟨⟨_, _, _, _, h⟩, _⟩ := hg _ this
              exact h
            exact pred_subst (hg k (List.mem_of_mem_eraseIdx (without_fresh ex k hk))).1 (over_mgu (hov ex) (hov ey) heq fun τ h => ⟨τ, hm τ h⟩)
        · cases h
    · cases h
  · cases h

/-! ### Copies -/

mutual
theorem syms_rename (ren : Nat → Nat) : ∀ t : Term, syms (subst (fun v => .var (ren v)) t) = syms t
  | .var v => by simp [syms]
  | .const c => by simp [syms]
  | .app f as => by simp only [subst_app, syms, symsL_rename ren as]
theorem symsL_rename (ren : Nat → Nat) : ∀ as : List Term, symsL (as.map (subst (fun v => .var (ren v)))) = symsL as
  | [] => rfl
  | a :: as => by simp only [List.map_cons, symsL, syms_rename ren a, symsL_rename ren as]
end

/-- a copy of a clause -/
structure Copy (bank : Nat) (ls r : List Lit) : Prop where
  ren : ∃ ren : Nat → Nat, r = ls.map (Lit.subst (fun v => .var (ren v))) ∧
    (∀ v w, v ∈ clVars ls → w ∈ clVars ls → ren v = ren w → v = w)
  vars : ∀ l ∈ r, ∀ w ∈ vars l.atom, bank * 1000 ≤ w ∧ w < bank * 1000 + 1000

theorem copy_spec {bank n : Nat} {ls r : List Lit} {s' : BSt} (h : copyCl some bank n St.empty ls = .ok r s')
    (hv : ∀ l ∈ ls, ∀ v ∈ vars l.atom, v < 4000) : Copy bank ls r := by
  obtain ⟨ren, h1, h2, h3, _, h5⟩ := Props.C30_copy_is_variant bank n St.empty ls r s'
    ⟨Props.acyclic_empty, fun v t e => by simp [St.empty] at e⟩ hv h .var ⟨fun v t e => by simp [St.empty] at e, fun _ _ => rfl⟩
  have e : ls.map (Lit.subst .var) = ls := by
    conv => rhs; rw [← List.map_id ls]
    exact List.map_congr_left fun l _ => Complete.Lit.subst_id l
  rw [e] at h1 h2 h3
  refine ⟨⟨ren, h1, fun v w hv hw => h2 v hv w hw⟩, ?_⟩
  intro l hl w hw
  rw [h1] at hl
  obtain ⟨k, hk, rfl⟩ := List.mem_map.1 hl
  simp only [Lit.subst] at hw
  obtain ⟨v, hv', hw⟩ := mem_vars_subst.1 hw
  simp only [vars_var, List.mem_singleton] at hw
  subst hw
  have := h3 v (clVars_mem.2 ⟨k, hk, hv'⟩)
  omega

theorem Copy.okl {bank : Nat} (hb : bank < 4) {ls r : List Lit} (h : Copy bank ls r) (ho : ∀ l ∈ ls, Okl S l) : ∀ l ∈ r, Okl S l := by
  intro l hl
  have hv := h.vars l hl
  obtain ⟨ren, e, _⟩ := h.ren
  rw [e] at hl
  obtain ⟨k, hk, rfl⟩ := List.mem_map.1 hl
  obtain ⟨⟨h1, h2⟩, h3⟩ := ho k hk
  refine ⟨⟨pred_subst h1 fun _ => over_var, fun w hw => ?_⟩, ?_⟩
  · have := (hv w hw).2
    omega
  · simp only [Short, pre, Lit.subst, syms_rename]
    exact h3

theorem Copy.length {bank : Nat} {ls r : List Lit} (h : Copy bank ls r) : r.length = ls.length := by
  obtain ⟨ren, e, _⟩ := h.ren
  rw [e, List.length_map]

/-- instances of the clause are instances of the copy -/
theorem Copy.covers {bank : Nat} {ls r : List Lit} (h : Copy bank ls r) {P : List Lit → Prop} (hp : P r) : Covers P ls := by
  obtain ⟨ren, e, hi⟩ := h.ren
  obtain ⟨ρ, hρ⟩ := unrename (V := fun v => v ∈ clVars ls) hi .var
  refine .of hp (by rw [h.length]) ρ fun l hl => ?_
  rw [e] at hl
  obtain ⟨k, hk, rfl⟩ := List.mem_map.1 hl
  rw [Complete.Lit.subst_subst]
  have e2 : k.subst (fun v => Term.subst ρ (.var (ren v))) = k.subst .var :=
    lit_congr fun v hv => by simpa using hρ v (clVars_mem.2 ⟨k, hk, hv⟩)
  rw [e2, Complete.Lit.subst_id]; exact hk

/-- instances of the copy are instances of the clause -/
theorem Copy.inst {bank : Nat} {ls r : List Lit} (h : Copy bank ls r) (σ : Nat → Term) :
    ∃ ρ : Nat → Term, r.map (Lit.subst σ) = ls.map (Lit.subst ρ) := by
  obtain ⟨ren, rfl, _⟩ := h.ren
  refine ⟨fun v => σ (ren v), ?_⟩
  rw [List.map_map]
  refine List.map_congr_left fun l _ => ?_
  rw [Function.comp_apply, Complete.Lit.subst_subst]
  exact lit_congr fun v _ => by simp

/-! ### Cuts -/

theorem finish_subsumed {us : Units} {n : Nat} {cands m bucket tag st rs}
    (h : finish true false false us n cands m bucket tag st rs = .subsumed) : ∃ l ∈ rs, Props.Units.has us l.neg l.atom := by
  unfold finish at h
  split at h
  · cases h
  · split at h
    · rename_i hc
      exact (((Props.cutSubsume_spec true us rs).1).1 hc).2
    · simp only [Bool.false_eq_true, if_false, Bool.and_false] at h
      split at h
      · cases h
      · cases h

theorem finish_len {us : Units} {n : Nat} {cands m bucket st rs r}
    (h : finish true false false us n cands m bucket fresh st rs = .ok r) : r.length ≤ rs.length := by
  unfold finish at h
  split at h
  · cases h; simp
  · split at h
    · cases h
    · rename_i fl hc
      have hfl := (Props.cutSubsume_spec true us rs).2 fl hc
      simp only [Bool.false_eq_true, if_false, Bool.and_false] at h
      split at h
      · cases h; simp
      · cases h
        have h1 : (removeCuts fl).length ≤ rs.length := by
          rw [hfl]
          simp only [removeCuts, List.length_map]
          exact Nat.le_trans (List.length_filter_le _ _) (by simp)
        have h2 : (doubleCutCl m bucket (fresh (removeCuts fl))).length ≤ (removeCuts fl).length := by
          unfold doubleCutCl
          split
          · simp
          · rcases Props.doubleLoop_spec (m := m) (bucket := bucket) (xcl := fresh (removeCuts fl)) (xs := fresh (removeCuts fl))
              (found := false) with e | ⟨_, pre, x, post, e, e', _⟩
            · rw [e]; simp
            · rw [e']
              have := congrArg List.length e
              simp only [fresh_length, List.length_append, List.length_cons] at this
              simp only [List.length_append]
              omega
        simp only [List.length_map]
        omega

theorem finish_sub {us : Units} {n : Nat} {cands m bucket rs r}
    (h : finish true false false us n cands m bucket fresh St.empty rs = .ok r) : ∀ l ∈ r, l ∈ rs :=
  Props.finish_mem (Props.NewCl.tagOk Props.tagPos_new) Props.clean_empty h

theorem simpLoop_ok {us : Units} {m : Term → Nat} {bucket : Bool → Term → List (Lit × Lit)} {xcl : List ALit} :
    ∀ {xs : List ALit} {rs r : List Lit} {found chg : Bool}, simpLoop (fun x => .ok (x, false)) us m bucket xcl found chg rs xs = .ok r →
      ∃ t, t.Sublist (lits xs) ∧ r = rs ++ t := by
  intro xs
  induction xs with
  | nil =>
    intro rs r found chg h
    simp only [simpLoop] at h
    split at h
    · simp only [SRes.ok.injEq] at h
      exact ⟨[], by simp [lits], by simp [h]⟩
    · cases h
  | cons x xs ih =>
    intro rs r found chg h
    have lift : (∃ t, t.Sublist (lits xs) ∧ r = rs ++ t) → ∃ t, t.Sublist (lits (x :: xs)) ∧ r = rs ++ t := by
      rintro ⟨t, ht, e⟩
      exact ⟨t, ht.cons _, e⟩
    simp only [simpLoop] at h
    split at h
    · split at h
      · exact lift (ih h)
      · cases h
    · split at h
      · split at h
        · cases h
        · exact lift (ih h)
      · split at h
        · cases h
        · split at h
          · exact lift (ih h)
          · split at h
            · exact lift (ih h)
            · obtain ⟨t, ht, e⟩ := ih h
              refine ⟨x.lit :: t, ht.cons_cons _, ?_⟩
              rw [e, List.append_assoc]; rfl

theorem simpLoop_drop {us : Units} {m : Term → Nat} {bucket : Bool → Term → List (Lit × Lit)} {xcl : List ALit} :
    ∀ {xs : List ALit} {rs : List Lit} {found chg : Bool}, simpLoop (fun x => .ok (x, false)) us m bucket xcl found chg rs xs = .drop →
      ∃ x ∈ xs, isRec x.atom = false ∨ (2 ≤ xcl.length ∧ Props.Units.has us x.neg x.atom) := by
  intro xs
  induction xs with
  | nil =>
    intro rs found chg h
    simp only [simpLoop] at h
    split at h <;> cases h
  | cons x xs ih =>
    intro rs found chg h
    have lift : (∃ z ∈ xs, isRec z.atom = false ∨ (2 ≤ xcl.length ∧ Props.Units.has us z.neg z.atom)) →
        ∃ z ∈ x :: xs, isRec z.atom = false ∨ (2 ≤ xcl.length ∧ Props.Units.has us z.neg z.atom) := by
      rintro ⟨z, hz, e⟩
      exact ⟨z, .tail _ hz, e⟩
    simp only [simpLoop] at h
    split at h
    · rename_i e
      split at h
      · exact lift (ih h)
      · refine ⟨x, by simp, .inl ?_⟩
        rw [(Term.beq_iff _ _).1 e]; rfl
    · split at h
      · rename_i e
        split at h
        · refine ⟨x, by simp, .inl ?_⟩
          rw [(Term.beq_iff _ _).1 e]; rfl
        · exact lift (ih h)
      · split at h
        · rename_i ht
          refine ⟨x, by simp, .inr ?_⟩
          unfold atomCut at ht
          split at ht
          · rename_i hc
            simp only [Bool.and_eq_true, Bool.not_eq_true', Bool.not_false, Bool.and_true, decide_eq_false_iff_not, Props.known_iff] at hc
            exact ⟨by omega, .inl hc.2⟩
          · split at ht
            · rename_i hc
              simp only [Bool.and_eq_true, Bool.not_eq_true', Bool.not_false, Bool.and_true, decide_eq_false_iff_not, Props.known_iff] at hc
              exact ⟨by omega, .inr hc.2⟩
            · split at ht
              · omega
              · split at ht <;> omega
        · split at h
          · exact lift (ih h)
          · split at h
            · exact lift (ih h)
            · exact lift (ih h)

theorem simplify_ok {o : Opt} {s : PState} {c : List ALit} {r : List Lit} (h : simplify o s c = .ok r) (hc : ∀ x ∈ c, isRec x.atom = true) :
    r.Sublist (lits c) := by
  unfold simplify at h
  split at h
  · rename_i x _
    simp only [simplifyFact] at h
    split at h
    · cases h
    · split at h
      · rename_i e
        have := hc x (by simp)
        rw [(Term.beq_iff _ _).1 e] at this
        cases this
      · simp at h
  · unfold simplifyCl at h
    obtain ⟨t, ht, rfl⟩ := simpLoop_ok h
    simpa using ht

theorem simplify_drop {o : Opt} {s : PState} {c : List ALit} (h : simplify o s c = .drop) (hc : ∀ x ∈ c, isRec x.atom = true) :
    ∃ x ∈ c, 2 ≤ c.length ∧ Props.Units.has s.units x.neg x.atom := by
  unfold simplify at h
  split at h
  · rename_i x _
    simp only [simplifyFact] at h
    split at h
    · rename_i e
      have := hc x (by simp)
      rw [(Term.beq_iff _ _).1 e] at this
      cases this
    · split at h
      · cases h
      · simp at h
  · unfold simplifyCl at h
    obtain ⟨x, hx, e⟩ := simpLoop_drop h
    rw [hc x hx] at e
    exact ⟨x, hx, e.resolve_left (by simp)⟩

/-! ### Subsumption -/

theorem form_cases (h : Const → Int) (cl : List ALit) :
    (∃ x, cl = [x] ∧ x.neg = false ∧ form h cl = .fact x.atom) ∨ form h cl = .rule ((lits cl).map (Lit.stored h)) := by
  unfold form
  split
  · rename_i x xs hf
    left
    match xs with
    | [] =>
      simp only [isFact, Bool.and_eq_true, Bool.not_eq_true'] at hf
      exact ⟨x, rfl, hf.1, rfl⟩
    | _ :: _ => simp [isFact] at hf
  · exact .inr rfl

theorem unitLoop_yes {h : Const → Int} (hh : HashOk h) {l1 : Lit} (h1 : Short l1.atom) : ∀ {sl : List Lit}, (∀ l ∈ sl, Short l.atom) →
    unitLoop (l1.stored h) (sl.map (Lit.stored h)) = some true → ∃ c ∈ sl, l1.neg = c.neg ∧ ∃ θ, subst θ l1.atom = c.atom := by
  intro sl
  induction sl with
  | nil => intro _ hyes; simp [unitLoop] at hyes
  | cons b sl ih =>
    intro hs hyes
    have hb := hs b List.mem_cons_self
    have ih' : unitLoop (l1.stored h) (sl.map (Lit.stored h)) = some true →
        ∃ c ∈ b :: sl, l1.neg = c.neg ∧ ∃ θ, subst θ l1.atom = c.atom := by
      intro hu
      obtain ⟨c, hc, hr⟩ := ih (fun l hl => hs l (List.mem_cons_of_mem _ hl)) hu
      exact ⟨c, List.mem_cons_of_mem _ hc, hr⟩
    rw [List.map_cons] at hyes
    unfold unitLoop at hyes
    split at hyes
    · cases hyes
    · split at hyes
      · next hc =>
        have hneg : l1.neg = b.neg := by
          rw [show (l1.stored h).word = l1.word h from rfl,
            show (b.stored h).word = b.word h from rfl, negPol_iff hh h1 hb] at hc
          simp at hc; exact hc.1
        cases hm : matchT St.empty (l1.stored h).atom (b.stored h).atom with
        | ub => rw [hm] at hyes; cases hyes
        | ok s => exact ⟨b, List.mem_cons_self, hneg, s.val, (matchT_sound _ _ _ _ hm).2.1⟩
        | fail s => rw [hm] at hyes; exact ih' hyes
      · exact ih' hyes

theorem factLoop_yes {h : Const → Int} (hh : HashOk h) {a : Term} : ∀ {sl : List Lit}, (∀ l ∈ sl, Short l.atom) →
    factLoop a (sl.map (Lit.stored h)) = true → ∃ c ∈ sl, c.neg = false ∧ a = c.atom := by
  intro sl
  induction sl with
  | nil => intro _ hyes; simp [factLoop] at hyes
  | cons b sl ih =>
    intro hs hyes
    rw [List.map_cons] at hyes
    unfold factLoop at hyes
    split at hyes
    · cases hyes
    · split at hyes
      · next hc =>
        rw [show (b.stored h).word = b.word h from rfl, isNegW_iff hh (hs b List.mem_cons_self)] at hc
        simp only [Bool.and_eq_true, Bool.not_eq_true', eqTerm_iff] at hc
        exact ⟨b, List.mem_cons_self, hc.1, hc.2⟩
      · obtain ⟨c, hc, hr⟩ := ih (fun l hl => hs l (List.mem_cons_of_mem _ hl)) hyes
        exact ⟨c, List.mem_cons_of_mem _ hc, hr⟩

theorem covers_of_subsumes {P : List Lit → Prop} {gl sl : List Lit} (h : SubsumesWith false gl sl) (hp : P gl) : Covers P sl := by
  obtain ⟨θ, f, f1, f3⟩ := h
  refine .of hp (Props.fin_le f f1) θ fun l hl => ?_
  obtain ⟨i, hi, rfl⟩ := List.getElem_of_mem hl
  obtain ⟨h1, h2⟩ := f3 ⟨i, hi⟩
  have h2 := h2.resolve_right (by simp)
  have e : (gl[i]).subst θ = sl[f ⟨i, hi⟩] := by
    unfold Lit.subst
    simp only [Fin.getElem_fin] at h1 h2 ⊢
    rw [h2, h1]
  rw [e]
  exact List.getElem_mem _

theorem lits_one (x : ALit) : lits [x] = [⟨x.neg, x.atom⟩] := rfl

/-- a yes answer: the general clause subsumes the specific one -/
theorem subsume_yes {h : Const → Int} (hh : HashOk h) {ans : Bool} {g s : List ALit} (hg : ∀ l ∈ lits g, Okl S l) (hs : ∀ l ∈ lits s, Okl S l)
    (hyes : subsumeCl ans (form h g) (form h s) = some true) : SubsumesWith false (lits g) (lits s) := by
  have hss : ∀ l ∈ lits s, Short l.atom := fun l hl => (hs l hl).2
  have aok : ∀ {c : List ALit}, (∀ l ∈ lits c, Okl S l) → AtomsOk (lits c) := by
    intro c hc l hl
    obtain ⟨⟨⟨p, as, e, _⟩, _⟩, h2⟩ := hc l hl
    exact ⟨⟨p, as, e⟩, h2⟩
  rcases form_cases h g with ⟨x, rfl, hx, eg⟩ | eg <;> rcases form_cases h s with ⟨y, rfl, hy, es⟩ | es <;> rw [eg, es] at hyes
  · simp only [subsumeCl, Option.some.injEq, eqTerm_iff] at hyes
    rw [lits_one, Props.subsumes_one]
    exact ⟨⟨y.neg, y.atom⟩, by simp [lits_one], by rw [hx, hy], .var, by rw [subst_id, hyes]⟩
  · simp only [subsumeCl, Option.some.injEq] at hyes
    obtain ⟨c, hc, h1, h2⟩ := factLoop_yes hh hss hyes
    rw [lits_one, Props.subsumes_one]
    exact ⟨c, hc, by rw [hx, h1], .var, by rw [subst_id, h2]⟩
  · match g, hg with
    | [], _ => simp [subsumeCl, lits] at hyes
    | [l], hg =>
      rw [lits_one, Props.subsumes_one]
      simp only [subsumeCl, lits_one, List.map_cons, List.map_nil, List.length_singleton] at hyes
      rw [if_neg (by omega), show (Lit.stored h ⟨l.neg, l.atom⟩).word = Lit.word h ⟨l.neg, l.atom⟩ from rfl,
        isNegW_iff hh (hg ⟨l.neg, l.atom⟩ (by simp [lits_one])).2] at hyes
      split at hyes
      · cases hyes
      · next hn =>
        have hn : l.neg = false := by simpa using hn
        cases hm : matchT St.empty (Lit.stored h ⟨l.neg, l.atom⟩).atom y.atom with
        | ub => rw [hm] at hyes; cases hyes
        | fail s => rw [hm] at hyes; cases hyes
        | ok s => exact ⟨⟨y.neg, y.atom⟩, by simp [lits_one], by rw [hn, hy], s.val, (matchT_sound _ _ _ _ hm).2.1⟩
    | l :: k :: g, _ => simp [subsumeCl, lits] at hyes
  · generalize hgl : lits g = gl at *
    generalize hsl : lits s = sl at *
    have ag := hgl ▸ aok (c := g) (hgl ▸ hg)
    have as' := hsl ▸ aok (c := s) (hsl ▸ hs)
    match gl with
    | [] =>
      exact ⟨fun v => .var v, fun i => absurd i.2 (by simp), fun i => absurd i.2 (by simp), fun i => absurd i.2 (by simp)⟩
    | [l1] =>
      rw [Props.subsumes_one]
      have e : subsumeCl ans (.rule ([l1].map (Lit.stored h))) (.rule (sl.map (Lit.stored h)))
        = unitLoop (l1.stored h) (sl.map (Lit.stored h)) := by simp [subsumeCl]
      rw [e] at hyes
      exact unitLoop_yes hh (hg l1 (by simp)).2 hss hyes
    | l1 :: l2 :: gl =>
      simp only [subsumeCl, List.length_map] at hyes
      rw [if_neg (by simp)] at hyes
      split at hyes
      · cases hyes
      · cases hr : subsAux ans (sl.map (Lit.stored h)) ((l1 :: l2 :: gl).map (Lit.stored h)) (fun _ => false) St.empty with
        | none => rw [hr] at hyes; cases hyes
        | some p =>
          obtain ⟨r, st⟩ := p
          rw [hr] at hyes
          have : r = true := by simpa using hyes
          subst this
          have := ((subsAux_spec ans _ _ _ _).1 st hr).2 st.val (Props.val_agrees st)
          obtain ⟨f, f1, _, f3⟩ := (Props.emb_iff hh as' (l1 :: l2 :: gl) ag _).1 this
          refine ⟨st.val, f, f1, fun i => ⟨(f3 i).1, .inl ?_⟩⟩
          rcases (f3 i).2 with e | ⟨_, ⟨bs, e⟩, _⟩
          · exact e
          · obtain ⟨⟨⟨p, cs, e', hp⟩, _⟩, _⟩ := hg _ (List.getElem_mem i.2)
            simp only [Fin.getElem_fin] at e
            rw [e] at e'
            cases e'
            exact absurd rfl hp.1

theorem activeSubsumes_yes {o : Opt} (hh : HashOk o.h) {c : List ALit} (hc : ∀ l ∈ lits c, Okl S l) : ∀ {as : List (List ALit)},
    (∀ a ∈ as, ∀ l ∈ lits a, Okl S l) → activeSubsumes o c as = some true → ∃ a ∈ as, SubsumesWith false (lits a) (lits c) := by
  intro as
  induction as with
  | nil => intro _ h; simp [activeSubsumes] at h
  | cons a as ih =>
    intro ha h
    have ih := ih (fun b hb => ha b (.tail _ hb))
    unfold activeSubsumes at h
    split at h
    · obtain ⟨b, hb, e⟩ := ih h
      exact ⟨b, .tail _ hb, e⟩
    · split at h
      · cases h
      · rename_i e
        exact ⟨a, by simp, subsume_yes hh (ha a (by simp)) hc e⟩
      · obtain ⟨b, hb, e⟩ := ih h
        exact ⟨b, .tail _ hb, e⟩

theorem givenSubsumed_yes {o : Opt} (hh : HashOk o.h) {c : List ALit} (hc : ∀ l ∈ lits c, Okl S l) {as : List (List ALit)}
    (ha : ∀ a ∈ as, ∀ l ∈ lits a, Okl S l) (h : givenSubsumed o as c = some true) {P : List Lit → Prop} (hP : ∀ a ∈ as, P (lits a)) :
    Covers P (lits c) := by
  unfold givenSubsumed at h
  split at h
  · rename_i e
    simp only [List.any_eq_true, activeUnit] at e
    obtain ⟨l, hl, a, ha', e⟩ := e
    have hl' : l ∈ c := (List.takeWhile_sublist _).subset hl
    split at e
    · rename_i x
      simp only [Bool.and_eq_true, beq_iff_eq, eqTerm_iff] at e
      have hm : l.lit ∈ lits c := List.mem_map_of_mem hl'
      refine .sub (hP _ ha') ?_ ?_
      · have := List.length_pos_of_mem hm
        simp only [lits_one, List.length_singleton]
        omega
      · intro k hk
        rw [lits_one, List.mem_singleton] at hk
        subst hk
        rw [show (⟨x.neg, x.atom⟩ : Lit) = l.lit by simp [ALit.lit, e.1.2, e.2]]
        exact hm
    · cases e
  · obtain ⟨a, ha', hs⟩ := activeSubsumes_yes hh hc ha h
    exact covers_of_subsumes hs (hP a ha')

end Gkc.Loop
