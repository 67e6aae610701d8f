import Verif.Sem
import Mathlib.SetTheory.Cardinal.Order
import Mathlib.Logic.Hydra
/-
Completeness of resolution with factoring in the form needed for C61 to C63: only chosen literals are resolved upon.

Clauses are lists of literals with variables.  Instances under all substitutions are taken as
clauses over the instances of the atoms (variables may remain, they act as further constants), so
that the domain of the model is the set of all terms.  This file is about clauses only, it mentions
no GKC function.
-/
namespace Gkc.Complete
open Gkc Term

/-- both signs of an atom -/
def Taut (Γ : List Lit) : Prop := ∃ a, ⟨false, a⟩ ∈ Γ ∧ ⟨true, a⟩ ∈ Γ

/-- `Γ` is a tautology or contains an instance of a clause of `P` with at most `n` literals -/
def Cov (P : List Lit → Prop) (n : Nat) (Γ : List Lit) : Prop :=
  Taut Γ ∨ ∃ D, P D ∧ D.length ≤ n ∧ ∃ σ : Nat → Term, ∀ l ∈ D, l.subst σ ∈ Γ

/-- every instance of `C` is covered by clauses that are not longer -/
def Covers (P : List Lit → Prop) (C : List Lit) : Prop := ∀ σ : Nat → Term, Cov P C.length (C.map (Lit.subst σ))

theorem Taut.mono {Γ Δ : List Lit} (h : Taut Γ) (hs : ∀ l ∈ Γ, l ∈ Δ) : Taut Δ := by
  obtain ⟨a, h1, h2⟩ := h
  exact ⟨a, hs _ h1, hs _ h2⟩

theorem Taut.subst {Γ : List Lit} (h : Taut Γ) (σ : Nat → Term) : Taut (Γ.map (Lit.subst σ)) := by
  obtain ⟨a, h1, h2⟩ := h
  exact ⟨Term.subst σ a, List.mem_map.2 ⟨_, h1, rfl⟩, List.mem_map.2 ⟨_, h2, rfl⟩⟩

theorem Cov.mono {P Q : List Lit → Prop} {n m : Nat} {Γ Δ : List Lit} (h : Cov P n Γ) (hP : ∀ D, P D → Q D) (hn : n ≤ m)
    (hs : ∀ l ∈ Γ, l ∈ Δ) : Cov Q m Δ := by
  rcases h with h | ⟨D, h1, h2, σ, h3⟩
  · exact .inl (h.mono hs)
  · exact .inr ⟨D, hP D h1, by omega, σ, fun l hl => hs _ (h3 l hl)⟩

theorem Cov.trans {P Q : List Lit → Prop} {n : Nat} {Γ : List Lit} (h : Cov P n Γ) (hQ : ∀ D, P D → Covers Q D) : Cov Q n Γ := by
  rcases h with h | ⟨D, h1, h2, σ, h3⟩
  · exact .inl h
  · have hs : ∀ l ∈ D.map (Lit.subst σ), l ∈ Γ := by
      intro l hl
      obtain ⟨k, hk, rfl⟩ := List.mem_map.1 hl
      exact h3 k hk
    exact (hQ D h1 σ).mono (fun _ h => h) h2 hs

theorem Covers.trans {P Q : List Lit → Prop} {C : List Lit} (h : Covers P C) (hQ : ∀ D, P D → Covers Q D) : Covers Q C :=
  fun σ => (h σ).trans hQ

theorem Covers.mono {P Q : List Lit → Prop} {C : List Lit} (h : Covers P C) (hP : ∀ D, P D → Q D) : Covers Q C :=
  fun σ => (h σ).mono hP (Nat.le_refl _) (fun _ h => h)

theorem Lit.subst_subst (σ τ : Nat → Term) (l : Lit) :
    (l.subst σ).subst τ = l.subst (fun v => Term.subst τ (σ v)) := by
  simp only [Lit.subst, Term.subst_subst]

theorem Lit.subst_id (l : Lit) : l.subst .var = l := by
  cases l; simp [Lit.subst, Term.subst_id]

/-- a clause is covered by a clause that is not longer and has an instance inside it -/
theorem Covers.of {P : List Lit → Prop} {C D : List Lit} (h : P D) (hl : D.length ≤ C.length) (σ : Nat → Term)
    (hs : ∀ l ∈ D, l.subst σ ∈ C) : Covers P C := by
  intro τ
  refine .inr ⟨D, h, hl, fun v => Term.subst τ (σ v), fun l hl => ?_⟩
  rw [← Lit.subst_subst]
  exact List.mem_map_of_mem (hs l hl)

theorem Covers.self {P : List Lit → Prop} {C : List Lit} (h : P C) : Covers P C :=
  .of h (Nat.le_refl _) .var (fun l hl => by rw [Lit.subst_id]; exact hl)

/-- a clause is covered by one with some of its literals -/
theorem Covers.sub {P : List Lit → Prop} {C D : List Lit} (h : P D) (hl : D.length ≤ C.length) (hs : ∀ l ∈ D, l ∈ C) : Covers P C :=
  .of h hl .var (fun l hl => by rw [Lit.subst_id]; exact hs l hl)

theorem Covers.taut {P : List Lit → Prop} {C : List Lit} (h : Taut C) : Covers P C := fun σ => .inl (h.subst σ)

/-! ### Models of saturated sets -/

/-- truth of a literal when `I` says which atoms are true -/
def tv (I : Term → Prop) (l : Lit) : Prop := if l.neg then ¬ I l.atom else I l.atom

theorem tv_taut {I : Term → Prop} {Γ : List Lit} (h : Taut Γ) : ∃ l ∈ Γ, tv I l := by
  obtain ⟨a, h1, h2⟩ := h
  by_cases ha : I a
  · exact ⟨_, h1, by simpa [tv] using ha⟩
  · exact ⟨_, h2, by simpa [tv] using ha⟩

section
variable (r : Term → Term → Prop) [hw : IsWellOrder Term r]

/-- some clause of `A` makes `a` true: all its other literals are about smaller atoms and false -/
def Makes (A S : List Lit → Prop) (I : (b : Term) → Prop) (a : Term) (D : List Lit) (σ : Nat → Term) : Prop :=
  (A D ∧ ¬ S D) ∧ (⟨false, a⟩ : Lit) ∈ D.map (Lit.subst σ) ∧
    ∀ l ∈ D.map (Lit.subst σ), l = ⟨false, a⟩ ∨ (r l.atom a ∧ ¬ tv I l)

/-- the interpretation, by recursion on the well-order -/
noncomputable def interp (A S : List Lit → Prop) : Term → Prop :=
  hw.wf.fix fun a ih => ∃ D σ, (A D ∧ ¬ S D) ∧ (⟨false, a⟩ : Lit) ∈ D.map (Lit.subst σ) ∧
    ∀ l ∈ D.map (Lit.subst σ), l = ⟨false, a⟩ ∨ ∃ h : r l.atom a, ¬ (if l.neg then ¬ ih l.atom h else ih l.atom h)

theorem interp_eq (A S : List Lit → Prop) (a : Term) : interp r A S a ↔ ∃ D σ, Makes r A S (interp r A S) a D σ := by
  unfold interp
  rw [WellFounded.fix_eq]
  simp only [Makes, tv, exists_prop]

/-- the largest atom of a clause -/
theorem exists_max : ∀ {Γ : List Lit}, Γ ≠ [] → ∃ l ∈ Γ, ∀ k ∈ Γ, k.atom = l.atom ∨ r k.atom l.atom := by
  intro Γ
  induction Γ with
  | nil => intro h; exact absurd rfl h
  | cons l Γ ih =>
    intro _
    by_cases hn : Γ = []
    · subst hn
      exact ⟨l, by simp, by simp⟩
    · obtain ⟨k, hk, hm⟩ := ih hn
      rcases trichotomous_of r l.atom k.atom with h | h | h
      · exact ⟨k, by simp [hk], fun m hmem => by
          rcases List.mem_cons.1 hmem with rfl | hmem
          · exact .inr h
          · exact hm m hmem⟩
      · exact ⟨k, by simp [hk], fun m hmem => by
          rcases List.mem_cons.1 hmem with rfl | hmem
          · exact .inl h
          · exact hm m hmem⟩
      · refine ⟨l, by simp, fun m hmem => ?_⟩
        rcases List.mem_cons.1 hmem with rfl | hmem
        · exact .inl rfl
        · rcases hm m hmem with e | e
          · exact .inr (by rw [e]; exact h)
          · exact .inr (_root_.trans_of r e h)

end

/-- a set of clauses closed under resolution upon chosen literals and factoring, up to covering -/
structure Saturated (sel : List Lit → Nat → Bool) (A : List Lit → Prop) : Prop where
  res : ∀ x y, A x → A y → ∀ (σ τ : Nat → Term) (i j : Nat) (hi : i < x.length) (hj : j < y.length),
    sel x i = true → sel y j = true →
    x[i].neg = false → y[j].neg = true → subst σ x[i].atom = subst τ y[j].atom →
    ∃ n, Cov A n ((x.eraseIdx i).map (Lit.subst σ) ++ (y.eraseIdx j).map (Lit.subst τ))
  fac : ∀ x, A x → ∀ (σ : Nat → Term) (i j : Nat) (_ : i < j) (hj : j < x.length),
    x[i].subst σ = x[j].subst σ → Cov A (x.length - 1) (x.map (Lit.subst σ))

/-- The literals chosen by `sel` in the clauses of `G`.  In the clauses of `S` a literal of sign `p` is among them,
in the others every literal with an instance that is largest in the instance of the clause. -/
structure Chosen (G : List Lit → Prop) (sel : List Lit → Nat → Bool) (r : Term → Term → Prop) (S : List Lit → Prop) (p : Bool) : Prop where
  sign : ∀ C, G C → S C → ∃ (i : Nat) (h : i < C.length), sel C i = true ∧ C[i].neg = p
  max : ∀ C, G C → ¬ S C → ∀ (σ : Nat → Term) (i : Nat) (h : i < C.length),
    (∀ l ∈ C.map (Lit.subst σ), l.atom = subst σ C[i].atom ∨ r l.atom (subst σ C[i].atom)) → sel C i = true
  mono : ∀ E F, G E → G F → ¬ S E → (∃ σ τ : Nat → Term, ∀ l ∈ F, l.subst τ ∈ E.map (Lit.subst σ)) → ¬ S F

/-- a choice of literals that loses no proofs -/
def Choice (G : List Lit → Prop) (sel : List Lit → Nat → Bool) : Prop :=
  ∃ (r : Term → Term → Prop) (S : List Lit → Prop) (p : Bool), IsWellOrder Term r ∧ Chosen G sel r S p

theorem Choice.mono {G H : List Lit → Prop} {sel : List Lit → Nat → Bool} (h : Choice G sel) (hs : ∀ C, H C → G C) : Choice H sel := by
  obtain ⟨r, S, p, hw, h⟩ := h
  exact ⟨r, S, p, hw, fun C hC => h.sign C (hs C hC), fun C hC => h.max C (hs C hC), fun E F hE hF => h.mono E F (hs E hE) (hs F hF)⟩

theorem mem_eraseIdx_map {x : List Lit} {σ : Nat → Term} {i : Nat} {l : Lit} (h : l ∈ (x.eraseIdx i).map (Lit.subst σ)) :
    ∃ (k : Nat) (hk : k < x.length), k ≠ i ∧ l = x[k].subst σ := by
  obtain ⟨m, hm, rfl⟩ := List.mem_map.1 h
  obtain ⟨k, hk, hne, e⟩ := List.mem_eraseIdx_iff_getElem.1 hm
  exact ⟨k, hk, hne, by rw [e]⟩

section
open Classical Relation

/-- the atoms of the different literals of a clause -/
noncomputable def atoms (Γ : List Lit) : Multiset Term := (Γ.toFinset).val.map Lit.atom

theorem below_of_le (r : Term → Term → Prop) {X Y : Multiset Term} (h : X ≤ Y) : X = Y ∨ TransGen (CutExpand r) X Y := by
  obtain ⟨u, rfl⟩ := Multiset.le_iff_exists_add.1 h
  clear h
  induction u using Multiset.induction_on with
  | empty => exact .inl (by simp)
  | cons a u ih =>
    right
    have h1 : CutExpand r (X + u) (X + a ::ₘ u) := ⟨0, a, by simp, by simp [add_assoc, Multiset.singleton_add, add_comm u]⟩
    rcases ih with e | e
    · rw [← e] at h1; exact .single h1
    · exact .tail e h1

theorem atoms_sub {r : Term → Term → Prop} {Γ Δ : List Lit} (h : ∀ l ∈ Δ, l ∈ Γ) : atoms Δ = atoms Γ ∨ TransGen (CutExpand r) (atoms Δ) (atoms Γ) := by
  apply below_of_le
  exact Multiset.map_le_map (Finset.val_le_iff.2 fun l hl => List.mem_toFinset.2 (h l (List.mem_toFinset.1 hl)))

theorem atoms_cut {r : Term → Term → Prop} {Γ Δ : List Lit} {b : Lit} (hb : b ∈ Γ) (h : ∀ l ∈ Δ, (l ∈ Γ ∧ l ≠ b) ∨ r l.atom b.atom) :
    TransGen (CutExpand r) (atoms Δ) (atoms Γ) := by
  let T : Multiset Term := ((Δ.toFinset).filter fun l => r l.atom b.atom).val.map Lit.atom
  have h1 : CutExpand r (((Γ.toFinset).erase b).val.map Lit.atom + T) (atoms Γ) := by
    refine ⟨T, b.atom, fun a ha => ?_, ?_⟩
    · obtain ⟨l, hl, rfl⟩ := Multiset.mem_map.1 ha
      exact (Finset.mem_filter.1 (Finset.mem_def.2 hl)).2
    · have e : atoms Γ = ((Γ.toFinset).erase b).val.map Lit.atom + {b.atom} := by
        unfold atoms
        rw [Finset.erase_val]
        have := Multiset.cons_erase (s := (Γ.toFinset).val) (a := b) (List.mem_toFinset.2 hb)
        conv => lhs; rw [← this]
        rw [Multiset.map_cons, ← Multiset.singleton_add, add_comm]
      rw [e, add_assoc, add_comm T, ← add_assoc]
  have h2 : atoms Δ ≤ ((Γ.toFinset).erase b).val.map Lit.atom + T := by
    unfold atoms
    rw [← Multiset.map_add]
    apply Multiset.map_le_map
    refine (Multiset.le_iff_subset (Finset.nodup _)).2 fun l hl => ?_
    have hl : l ∈ Δ := List.mem_toFinset.1 hl
    rw [Multiset.mem_add]
    rcases h l hl with ⟨h1, h2⟩ | h'
    · exact .inl (Finset.mem_erase.2 ⟨h2, List.mem_toFinset.2 h1⟩)
    · exact .inr (Finset.mem_filter.2 ⟨List.mem_toFinset.2 hl, h'⟩)
  rcases below_of_le r h2 with e | e
  · rw [e]; exact .single h1
  · exact .tail e h1

/-- the logical part for a preferred negative sign -/
theorem saturated_model_neg {G A S : List Lit → Prop} {sel : List Lit → Nat → Bool} {r : Term → Term → Prop} [hw : IsWellOrder Term r]
    (hc : Chosen G sel r S true) (hG : ∀ x, A x → G x) (hs : Saturated sel A) (hne : ¬ A []) :
    ∃ I : Term → Prop, ∀ x, A x → ∀ σ : Nat → Term, ∃ l ∈ x.map (Lit.subst σ), tv I l := by
  refine ⟨interp r A S, ?_⟩
  generalize hI : interp r A S = I
  let Bad : Multiset Term → Nat → Prop := fun m n => ∃ D σ, A D ∧ D.length = n ∧ (∀ l ∈ D.map (Lit.subst σ), ¬ tv I l) ∧
    atoms (D.map (Lit.subst σ)) = m
  have irr : ∀ a, ¬ r a a := fun a => irrefl_of r a
  have wf : WellFounded (TransGen (CutExpand r)) := hw.wf.cutExpand.transGen
  have none : ∀ m, ∀ n, ¬ Bad m n := by
    intro m
    induction m using wf.induction with
    | _ m iha =>
    intro n
    induction n using Nat.strongRecOn with
    | _ n ihn =>
    rintro ⟨D, σ, hD, hlen, hf, hm⟩
    have less : ∀ E τ, A E → (∀ l ∈ E.map (Lit.subst τ), ¬ tv I l) →
        TransGen (CutExpand r) (atoms (E.map (Lit.subst τ))) (atoms (D.map (Lit.subst σ))) → False :=
      fun E τ hE hfE hlt => iha _ (hm ▸ hlt) _ ⟨E, τ, hE, rfl, hfE, rfl⟩
    have ntaut : ¬ Taut (D.map (Lit.subst σ)) := fun ht => by
      obtain ⟨l, hl, h⟩ := tv_taut (I := I) ht
      exact hf l hl h
    -- different literals of `D` have different instances
    have inj : ∀ (i j : Nat) (hij : i < j) (hj : j < D.length), D[i].subst σ ≠ D[j].subst σ := by
      intro i j hij hj e
      rcases hs.fac D hD σ i j hij hj e with h | ⟨E, hE, hle, τ, hsub⟩
      · exact ntaut h
      · have hsub' : ∀ l ∈ E.map (Lit.subst τ), l ∈ D.map (Lit.subst σ) := by
          intro l hl
          obtain ⟨k, hk, rfl⟩ := List.mem_map.1 hl
          exact hsub k hk
        rcases atoms_sub (r := r) hsub' with e | e
        · exact ihn E.length (by omega) ⟨E, τ, hE, rfl, fun l hl => hf l (hsub' l hl), e.trans hm⟩
        · exact less E τ hE (fun l hl => hf l (hsub' l hl)) e
    -- a chosen negative literal
    have negCase : ∀ (j : Nat) (hj : j < D.length), sel D j = true → D[j].neg = true → False := by
      intro j hj hsel n2
      obtain ⟨a, ha⟩ : ∃ a, a = subst σ D[j].atom := ⟨_, rfl⟩
      have ek' : D[j].subst σ = ⟨true, a⟩ := by rw [ha]; simp [Lit.subst, n2]
      have hneg : (⟨true, a⟩ : Lit) ∈ D.map (Lit.subst σ) := ek' ▸ List.mem_map_of_mem (List.getElem_mem hj)
      have hIa : I a := by
        have := hf _ hneg
        simpa [tv] using this
      have hmk : ∃ n E τ, Makes r A S I a E τ ∧ E.length = n := by
        rw [← hI, interp_eq, hI] at hIa
        obtain ⟨E, τ, h⟩ := hIa
        exact ⟨_, E, τ, h, rfl⟩
      obtain ⟨E, τ, ⟨⟨hE, hES⟩, hEa, hEb⟩, hEl⟩ := Nat.find_spec hmk
      have hmin : ∀ E' τ', Makes r A S I a E' τ' → Nat.find hmk ≤ E'.length := fun E' τ' h => Nat.find_min' hmk ⟨E', τ', h, rfl⟩
      generalize Nat.find hmk = m' at hEl hmin
      have injE : ∀ (i j : Nat) (hij : i < j) (hj : j < E.length), E[i].subst τ ≠ E[j].subst τ := by
        intro i j hij hj e
        rcases hs.fac E hE τ i j hij hj e with ⟨b, h1, h2⟩ | ⟨F, hF, hle, υ, hsub⟩
        · rcases hEb _ h2 with e' | ⟨_, e'⟩
          · simp at e'
          · rcases hEb _ h1 with e'' | ⟨hr, e''⟩
            · simp only [Lit.mk.injEq, true_and] at e''
              subst e''
              rcases hEb _ h2 with e3 | ⟨e3, _⟩
              · simp at e3
              · exact irr _ e3
            · simp only [tv] at e' e''
              exact e' e''
        · have hsub' : ∀ l ∈ F.map (Lit.subst υ), l ∈ E.map (Lit.subst τ) := by
            intro l hl
            obtain ⟨k, hk, rfl⟩ := List.mem_map.1 hl
            exact hsub k hk
          by_cases hFa : (⟨false, a⟩ : Lit) ∈ F.map (Lit.subst υ)
          · have := hmin F υ ⟨⟨hF, hc.mono E F (hG E hE) (hG F hF) hES ⟨τ, υ, hsub⟩⟩, hFa, fun l hl => hEb l (hsub' l hl)⟩
            omega
          · have hlow : ∀ l ∈ F.map (Lit.subst υ), r l.atom a ∧ ¬ tv I l := by
              intro l hl
              rcases hEb l (hsub' l hl) with e' | e'
              · exact absurd (e' ▸ hl) hFa
              · exact e'
            exact less F υ hF (fun l hl => (hlow l hl).2) (atoms_cut hneg fun l hl => .inr (hlow l hl).1)
      obtain ⟨k, hk, ek⟩ := List.mem_map.1 hEa
      obtain ⟨i, hi, rfl⟩ := List.getElem_of_mem hk
      have n1 : E[i].neg = false := by have := congrArg Lit.neg ek; simpa [Lit.subst] using this
      have a1 : subst τ E[i].atom = a := by have := congrArg Lit.atom ek; simpa [Lit.subst] using this
      have hselE : sel E i = true := by
        refine hc.max E (hG E hE) hES τ i hi fun l hl => ?_
        rw [a1]
        rcases hEb l hl with e | e
        · exact .inl (by rw [e])
        · exact .inr e.1
      have rest : ∀ l ∈ (E.eraseIdx i).map (Lit.subst τ) ++ (D.eraseIdx j).map (Lit.subst σ),
          ((l ∈ D.map (Lit.subst σ) ∧ l ≠ ⟨true, a⟩) ∨ r l.atom a) ∧ ¬ tv I l := by
        intro l hl
        rcases List.mem_append.1 hl with hl | hl
        · obtain ⟨p, hp, hpi, rfl⟩ := mem_eraseIdx_map hl
          rcases hEb _ (List.mem_map_of_mem (List.getElem_mem hp)) with e | e
          · exfalso
            rw [← ek] at e
            rcases Nat.lt_or_gt_of_ne hpi with h | h
            · exact injE p i h hi e
            · exact injE i p h hp e.symm
          · exact ⟨.inr e.1, e.2⟩
        · obtain ⟨p, hp, hpj, rfl⟩ := mem_eraseIdx_map hl
          have hmem : D[p].subst σ ∈ D.map (Lit.subst σ) := List.mem_map_of_mem (List.getElem_mem hp)
          refine ⟨.inl ⟨hmem, fun e => ?_⟩, hf _ hmem⟩
          rw [← ek'] at e
          rcases Nat.lt_or_gt_of_ne hpj with h | h
          · exact inj p j h hj e
          · exact inj j p h hp e.symm
      obtain ⟨n', hcov⟩ := hs.res E D hE hD τ σ i j hi hj hselE hsel n1 n2 (a1.trans ha)
      rcases hcov with ht | ⟨F, hF, _, υ, hsub⟩
      · obtain ⟨l, hl, h⟩ := tv_taut (I := I) ht
        exact (rest l hl).2 h
      · have hsub' : ∀ l ∈ F.map (Lit.subst υ), ((l ∈ D.map (Lit.subst σ) ∧ l ≠ ⟨true, a⟩) ∨ r l.atom a) ∧ ¬ tv I l := by
          intro l hl
          obtain ⟨k, hk, rfl⟩ := List.mem_map.1 hl
          exact rest _ (hsub k hk)
        exact less F υ hF (fun l hl => (hsub' l hl).2) (atoms_cut hneg fun l hl => (hsub' l hl).1)
    by_cases hS : S D
    · obtain ⟨j, hj, hsel, hn⟩ := hc.sign D (hG D hD) hS
      exact negCase j hj hsel hn
    · have hnD : D.map (Lit.subst σ) ≠ [] := by
        intro e
        have : D = [] := by simpa using e
        exact hne (this ▸ hD)
      obtain ⟨l, hl, hmax⟩ := exists_max r hnD
      obtain ⟨k, hk, rfl⟩ := List.mem_map.1 hl
      obtain ⟨j, hj, rfl⟩ := List.getElem_of_mem hk
      have hsel : sel D j = true := hc.max D (hG D hD) hS σ j hj fun l hl => hmax l hl
      cases hn : D[j].neg with
      | true => exact negCase j hj hsel hn
      | false =>
        have ek : D[j].subst σ = ⟨false, subst σ D[j].atom⟩ := by simp [Lit.subst, hn]
        have hIa : I (subst σ D[j].atom) := by
          rw [← hI, interp_eq]
          refine ⟨D, σ, ⟨hD, hS⟩, ek ▸ hl, fun l' hl' => ?_⟩
          rcases hmax l' hl' with e | e
          · left
            have e : l'.atom = subst σ D[j].atom := e
            cases hln : l'.neg with
            | false => cases l'; simp_all
            | true =>
              exfalso
              apply ntaut
              refine ⟨subst σ D[j].atom, ek ▸ hl, ?_⟩
              have : l' = ⟨true, subst σ D[j].atom⟩ := by cases l'; simp_all
              rw [← this]; exact hl'
          · right
            refine ⟨e, ?_⟩
            rw [hI]
            exact hf l' hl'
        refine hf _ hl ?_
        rw [ek]
        simpa [tv] using hIa
  intro x hx σ
  by_contra hcon
  exact none _ _ ⟨x, σ, hx, rfl, fun l hl h => hcon ⟨l, hl, h⟩, rfl⟩

end

/-! Exchanging the signs -/

/-- the literal with the other sign -/
def flip (l : Lit) : Lit := ⟨!l.neg, l.atom⟩

theorem flip_flip (l : Lit) : flip (flip l) = l := by cases l; simp [flip]

theorem flip_subst (σ : Nat → Term) (l : Lit) : (flip l).subst σ = flip (l.subst σ) := rfl

theorem map_flip_flip (C : List Lit) : (C.map flip).map flip = C := by
  rw [List.map_map]
  conv => rhs; rw [← List.map_id C]
  exact List.map_congr_left fun l _ => flip_flip l

theorem map_flip_subst (σ : Nat → Term) (C : List Lit) : (C.map flip).map (Lit.subst σ) = (C.map (Lit.subst σ)).map flip := by
  simp only [List.map_map]
  rfl

theorem mem_flip {l : Lit} {Γ : List Lit} : l ∈ Γ.map flip ↔ flip l ∈ Γ := by
  constructor
  · intro h
    obtain ⟨k, hk, rfl⟩ := List.mem_map.1 h
    rwa [flip_flip]
  · intro h
    exact List.mem_map.2 ⟨_, h, flip_flip l⟩

theorem Cov.flip {A : List Lit → Prop} {n : Nat} {Γ : List Lit} (h : Cov A n (Γ.map flip)) : Cov (fun C => A (C.map Complete.flip)) n Γ := by
  rcases h with ⟨a, h1, h2⟩ | ⟨D, h1, h2, σ, h3⟩
  · exact .inl ⟨a, mem_flip.1 h2, mem_flip.1 h1⟩
  · refine .inr ⟨D.map Complete.flip, by simpa only [map_flip_flip] using h1, by simpa using h2, σ, fun l hl => ?_⟩
    have := h3 _ (mem_flip.1 hl)
    rw [flip_subst] at this
    have := mem_flip.1 this
    rwa [flip_flip] at this

/-- C61, the logical part: a set without the empty clause that is saturated for a good choice of literals has a model -/
theorem saturated_model {G A : List Lit → Prop} {sel : List Lit → Nat → Bool} (hc : Choice G sel) (hG : ∀ x, A x → G x)
    (hs : Saturated sel A) (hne : ¬ A []) :
    ∃ I : Term → Prop, ∀ x, A x → ∀ σ : Nat → Term, ∃ l ∈ x.map (Lit.subst σ), tv I l := by
  obtain ⟨r, S, p, hw, hc⟩ := hc
  cases p with
  | true => exact saturated_model_neg hc hG hs hne
  | false =>
    have hc' : Chosen (fun C => G (C.map flip)) (fun C => sel (C.map flip)) r (fun C => S (C.map flip)) true := by
      refine ⟨fun C hg h => ?_, fun C hg h σ i hi hm => ?_, fun E F hE hF h ⟨σ, τ, hsub⟩ => ?_⟩
      · obtain ⟨i, hi, h1, h2⟩ := hc.sign _ hg h
        refine ⟨i, by simpa using hi, h1, ?_⟩
        simpa [flip] using h2
      · refine hc.max _ hg h σ i (by simpa using hi) fun l hl => ?_
        rw [map_flip_subst] at hl
        have := hm _ (mem_flip.1 hl)
        simpa [flip] using this
      · refine hc.mono _ _ hE hF h ⟨σ, τ, fun l hl => ?_⟩
        rw [map_flip_subst, mem_flip]
        exact hsub _ (mem_flip.1 hl)
    have hs' : Saturated (fun C => sel (C.map flip)) (fun C => A (C.map flip)) := by
      refine ⟨fun x y hx hy σ τ i j hi hj s1 s2 n1 n2 e => ?_, fun x hx σ i j hij hj e => ?_⟩
      · obtain ⟨n, h⟩ := hs.res _ _ hy hx τ σ j i (by simpa using hj) (by simpa using hi) s2 s1 (by simp [flip, n2]) (by simp [flip, n1])
          (by simpa [flip] using e.symm)
        refine ⟨n, Cov.mono (Cov.flip (Γ := (y.eraseIdx j).map (Lit.subst τ) ++ (x.eraseIdx i).map (Lit.subst σ)) ?_) (fun _ h => h) (Nat.le_refl _)
          (fun l hl => by simpa [or_comm] using hl)⟩
        rw [List.eraseIdx_map, List.eraseIdx_map, map_flip_subst, map_flip_subst, ← List.map_append] at h
        exact h
      · have h := hs.fac _ hx σ i j hij (by simpa using hj) (by simp only [List.getElem_map, flip_subst, e])
        rw [map_flip_subst, List.length_map] at h
        exact h.flip
    obtain ⟨I, hI⟩ := saturated_model_neg (A := fun C => A (C.map flip)) hc' (fun x hx => hG _ hx) hs' (by simpa using hne)
    refine ⟨fun a => ¬ I a, fun x hx σ => ?_⟩
    obtain ⟨l, hl, ht⟩ := hI (x.map flip) (by simpa only [map_flip_flip] using hx) σ
    rw [map_flip_subst] at hl
    refine ⟨_, mem_flip.1 hl, ?_⟩
    cases hn : l.neg with
    | true => simpa [tv, flip, hn] using ht
    | false => simpa [tv, flip, hn] using ht

/-- every literal may be resolved upon -/
theorem choice_all (G : List Lit → Prop) : Choice G (fun _ _ => true) :=
  ⟨WellOrderingRel, fun _ => False, true, WellOrderingRel.isWellOrder, fun _ _ h => h.elim, fun _ _ _ _ _ _ _ => rfl, fun _ _ _ _ _ _ h => h⟩

/-! ### From the interpretation to a structure -/

/-- the structure on all terms; `=` and the truth constants are given their meaning -/
def model (I : Term → Prop) : FO where
  D := Term
  cst := .const
  fn := .app
  pr p as := if p = .sym "=" then (match as with
      | [a, b] => a = b
      | _ => False)
    else if p = .sym "$pr" ∧ as = [.const (.sym "$true")] then True
    else if p = .sym "$pr" ∧ as = [.const (.sym "$false")] then False
    else I (.app p as)

mutual
theorem model_eval (I : Term → Prop) (ρ : Nat → Term) : ∀ t : Term, (model I).eval ρ t = subst ρ t
  | .var v => rfl
  | .const c => by simp [FO.eval, model]
  | .app f as => by
    simp only [FO.eval, subst]
    rw [model_evalL I ρ as]
    rfl
theorem model_evalL (I : Term → Prop) (ρ : Nat → Term) : ∀ as : List Term, (model I).evalL ρ as = substL ρ as
  | [] => rfl
  | a :: as => by
    simp only [FO.evalL, substL]
    rw [model_eval I ρ a, model_evalL I ρ as]
    rfl
end

end Gkc.Complete
