import Verif.Build
import Verif.UnifyLemmas
import Verif.Sem
/- Lemmas about the term builders. -/
namespace Gkc
open Term

mutual
/-- evaluation of every record of a term, innermost first -/
def norm (ev : Term → Option Term) : Term → Option Term
  | .var v => some (.var v)
  | .const c => some (.const c)
  | .app f as => match normL ev as with
    | none => none
    | some as' => ev (.app f as')
def normL (ev : Term → Option Term) : List Term → Option (List Term)
  | [] => some []
  | a :: as => match norm ev a with
    | none => none
    | some a' => match normL ev as with
      | none => none
      | some as' => some (a' :: as')
end

mutual
theorem norm_some : ∀ t : Term, norm some t = some t
  | .var v => rfl
  | .const c => rfl
  | .app f as => by simp only [norm, normL_some as]
theorem normL_some : ∀ as : List Term, normL some as = some as
  | [] => rfl
  | a :: as => by simp only [normL, norm_some a, normL_some as]
end

/-- the evaluation steps are true in the interpretation -/
def EvSound (I : Interp) (ev : Term → Option Term) : Prop :=
  ∀ t t', ev t = some t' → ∀ ρ : Nat → I.D, eval I ρ t' = eval I ρ t

theorem EvSound.some (I : Interp) : EvSound I some := by
  intro t t' h ρ; cases h; rfl

mutual
theorem norm_eval {I : Interp} {ev} (h : EvSound I ev) (ρ : Nat → I.D) : ∀ t t', norm ev t = some t' →
    eval I ρ t' = eval I ρ t
  | .var v, t', e => by simp only [norm, Option.some.injEq] at e; subst e; rfl
  | .const c, t', e => by simp only [norm, Option.some.injEq] at e; subst e; rfl
  | .app f as, t', e => by
    simp only [norm] at e
    split at e
    · cases e
    · rename_i as' e'
      rw [h _ _ e ρ]
      simp only [eval, normL_eval h ρ as as' e']
theorem normL_eval {I : Interp} {ev} (h : EvSound I ev) (ρ : Nat → I.D) : ∀ as as', normL ev as = some as' →
    evalL I ρ as' = evalL I ρ as
  | [], as', e => by simp only [normL, Option.some.injEq] at e; subst e; rfl
  | a :: as, as', e => by
    simp only [normL] at e
    split at e
    · cases e
    · rename_i a' ea
      split at e
      · cases e
      · rename_i as'' eas
        simp only [Option.some.injEq] at e; subst e
        simp only [evalL, norm_eval h ρ a a' ea, normL_eval h ρ as as'' eas]
end

/-- the renaming given by the list of variables met so far -/
def renT (bank : Nat) (names : List Nat) (v : Nat) : Term := .var (bank * 1000 + names.idxOf v)

/-- the bindings are those of `b0` plus the renaming of the variables `names` -/
structure BInv (b0 : Nat → Option Term) (names : List Nat) (s : BSt) : Prop where
  b : ∀ v, s.st.b v = if v ∈ names then some (.var (4000 + names.idxOf v)) else b0 v
  vc : s.vc = names.length
  nodup : names.Nodup
  free : ∀ v ∈ names, b0 v = none ∧ v < 4000
  le : names.length ≤ 1000

/-- a substitution denoted by bindings -/
structure Den (b0 : Nat → Option Term) (θ : Nat → Term) : Prop where
  bound : ∀ v t, b0 v = some t → θ v = subst θ t
  free : ∀ v, b0 v = none → θ v = .var v
  rng : ∀ v t, b0 v = some t → v < 4000 ∧ ∀ w ∈ vars t, w < 4000

theorem BInv.init {st : St} : BInv st.b [] ⟨st, 0⟩ :=
  ⟨by simp, rfl, List.nodup_nil, by simp, by simp⟩

/-- what following bindings finds -/
theorem walk_den {b0 : Nat → Option Term} {θ : Nat → Term} (hd : Den b0 θ) {names : List Nat} {s : BSt}
    (hi : BInv b0 names s) : ∀ {n x y}, walk s.st.b n x = some y → (∀ w ∈ vars x, w < 4000) →
    ((∀ w ∈ vars y, w < 4000) ∧ subst θ x = subst θ y ∧ ∀ v, y = .var v → v ∉ names ∧ b0 v = none) ∨
    ∃ u ∈ names, y = .var (4000 + names.idxOf u) ∧ subst θ x = .var u := by
  intro n
  induction n with
  | zero => intro x y e; simp [walk] at e
  | succ n ih =>
    intro x y e hx
    cases x with
    | const c => simp [walk] at e; subst e; left; exact ⟨hx, rfl, by simp⟩
    | app f as => simp [walk] at e; subst e; left; exact ⟨hx, rfl, by simp⟩
    | var v =>
      have hv : v < 4000 := hx v (by simp)
      simp only [walk] at e
      split at e
      · rename_i hb
        simp only [Option.some.injEq] at e; subst e; left
        refine ⟨hx, rfl, ?_⟩
        rintro w ⟨⟩
        rw [hi.b] at hb
        by_cases hm : v ∈ names
        · simp [hm] at hb
        · exact ⟨hm, by simpa [hm] using hb⟩
      · rename_i t hb
        rw [hi.b] at hb
        by_cases hm : v ∈ names
        · simp only [hm, if_true, Option.some.injEq] at hb
          subst hb
          right
          have hnone : s.st.b (4000 + names.idxOf v) = none := by
            rw [hi.b]
            have hnm : 4000 + names.idxOf v ∉ names := fun h => by have := (hi.free _ h).2; omega
            rw [if_neg hnm]
            cases hb0 : b0 (4000 + names.idxOf v) with
            | none => rfl
            | some t => have := (hd.rng _ _ hb0).1; omega
          refine ⟨v, hm, ?_, ?_⟩
          · cases n with
            | zero => simp [walk] at e
            | succ n => simp only [walk, hnone, Option.some.injEq] at e; exact e.symm
          · rw [subst_var]; exact hd.free v (hi.free v hm).1
        · simp only [hm, if_false] at hb
          have := ih e (hd.rng v t hb).2
          rw [subst_var, hd.bound v t hb]; exact this

theorem idxOf_prefix {l l' : List Nat} (h : l <+: l') {v : Nat} (hv : v ∈ l) :
    l'.idxOf v = l.idxOf v := by
  obtain ⟨m, rfl⟩ := h
  simp [List.idxOf_append, hv]

theorem renT_prefix {bank : Nat} {l l' : List Nat} (h : l <+: l') {t : Term}
    (ht : ∀ v ∈ vars t, v ∈ l) : subst (renT bank l') t = subst (renT bank l) t := by
  apply subst_congr
  intro v hv
  simp only [renT, idxOf_prefix h (ht v hv)]

/-- what a builder step does: the names grow, the built term is the renamed instance -/
def StepSpec (ev : Term → Option Term) (bank : Nat) (b0 : Nat → Option Term) (names : List Nat)
    (inst : Term) (r : Term) (s' : BSt) : Prop :=
  ∃ names', BInv b0 names' s' ∧ names <+: names' ∧
    norm ev (subst (renT bank names') inst) = some r ∧
    (∀ v ∈ vars inst, v ∈ names') ∧ (∀ v ∈ names', v ∈ names ∨ v ∈ vars inst)

/-- the same for a list -/
def StepSpecL (ev : Term → Option Term) (bank : Nat) (b0 : Nat → Option Term) (names : List Nat)
    (inst : List Term) (r : List Term) (s' : BSt) : Prop :=
  ∃ names', BInv b0 names' s' ∧ names <+: names' ∧
    normL ev (substL (renT bank names') inst) = some r ∧
    (∀ v ∈ varsL inst, v ∈ names') ∧ (∀ v ∈ names', v ∈ names ∨ v ∈ varsL inst)

theorem StepSpecL.nil {ev bank b0 names s} (hi : BInv b0 names s) :
    StepSpecL ev bank b0 names [] [] s :=
  ⟨names, hi, List.prefix_rfl, rfl, by simp [varsL], fun v hv => .inl hv⟩

theorem StepSpecL.cons {ev bank b0 names i is r rs s'}
    {n1 : List Nat} (hp : names <+: n1)
    (hn : norm ev (subst (renT bank n1) i) = some r) (hv : ∀ v ∈ vars i, v ∈ n1)
    (hb : ∀ v ∈ n1, v ∈ names ∨ v ∈ vars i)
    (h2 : StepSpecL ev bank b0 n1 is rs s') : StepSpecL ev bank b0 names (i :: is) (r :: rs) s' := by
  obtain ⟨n2, hi2, hp2, hn2, hv2, hb2⟩ := h2
  refine ⟨n2, hi2, hp.trans hp2, ?_, ?_, ?_⟩
  · simp only [substL, normL, renT_prefix hp2 hv, hn, hn2]
  · intro v hv'
    simp only [varsL, List.mem_append] at hv'
    rcases hv' with h | h
    · exact hp2.subset (hv v h)
    · exact hv2 v h
  · intro v hv'
    simp only [varsL, List.mem_append]
    rcases hb2 v hv' with h | h
    · rcases hb v h with h | h
      · exact .inl h
      · exact .inr (.inl h)
    · exact .inr (.inr h)

theorem buildL_spec {ev bank b0} {θ : Nat → Term} {f : BSt → Term → Out (Term × BSt)}
    (hf : ∀ names s x r s', BInv b0 names s → (∀ w ∈ vars x, w < 4000) → f s x = .ok (r, s') →
      StepSpec ev bank b0 names (subst θ x) r s') :
    ∀ as names s rs s', BInv b0 names s → (∀ w ∈ varsL as, w < 4000) → buildL f s as = .ok (rs, s') →
      StepSpecL ev bank b0 names (substL θ as) rs s' := by
  intro as
  induction as with
  | nil =>
    intro names s rs s' hi _ e
    simp only [buildL, Out.ok.injEq, Prod.mk.injEq] at e
    obtain ⟨rfl, rfl⟩ := e
    exact .nil hi
  | cons a as ih =>
    intro names s rs s' hi hw e
    simp only [buildL] at e
    split at e
    · cases e
    · cases e
    · rename_i a' s1 e1
      split at e
      · cases e
      · cases e
      · rename_i as' s2 e2
        simp only [Out.ok.injEq, Prod.mk.injEq] at e
        obtain ⟨rfl, rfl⟩ := e
        obtain ⟨n1, hi1, hp1, hn1, hv1, hb1⟩ := hf names s a a' s1 hi
          (fun w h => hw w (by simp [varsL, h])) e1
        exact .cons hp1 hn1 hv1 hb1 (ih n1 s1 as' s2 hi1 (fun w h => hw w (by simp [varsL, h])) e2)

theorem renameVar_spec {ev : Term → Option Term} {bank : Nat} {b0 : Nat → Option Term} {names s v r s'}
    (hi : BInv b0 names s) (h4 : v < 4000) (hv : v ∉ names) (hb : b0 v = none)
    (e : renameVar bank s v = .ok (r, s')) : StepSpec ev bank b0 names (.var v) r s' := by
  simp only [renameVar, h4, if_true] at e
  split at e
  · cases e
  · rename_i hc
    simp only [Out.ok.injEq, Prod.mk.injEq] at e
    obtain ⟨rfl, rfl⟩ := e
    have hvc := hi.vc
    refine ⟨names ++ [v], ⟨?_, ?_, ?_, ?_, ?_⟩, List.prefix_append _ _, ?_, ?_, ?_⟩
    · intro w
      simp only [St.set]
      by_cases hw : w = v
      · subst hw
        simp [List.idxOf_append, hv, hvc]
      · rw [if_neg hw, hi.b w]
        by_cases hm : w ∈ names
        · simp [hm, List.idxOf_append]
        · simp [hm, hw]
    · simp [hvc]
    · rw [List.nodup_append]
      refine ⟨hi.nodup, by simp, ?_⟩
      intro a ha b hb' hab
      simp only [List.mem_singleton] at hb'
      subst hb'; subst hab; exact hv ha
    · intro w hw
      rcases List.mem_append.1 hw with h | h
      · exact hi.free w h
      · simp only [List.mem_singleton] at h; subst h; exact ⟨hb, h4⟩
    · simp only [List.length_append, List.length_singleton]; omega
    · simp [norm, renT, List.idxOf_append, hv, hvc]
    · simp
    · intro w hw
      rcases List.mem_append.1 hw with h | h
      · exact .inl h
      · right; simpa using h

/-- the builder returns the evaluated renamed instance -/
theorem build_spec {ev : Term → Option Term} {bank : Nat} {b0 : Nat → Option Term} {θ : Nat → Term} (hd : Den b0 θ) :
    ∀ n names s x r s', BInv b0 names s → (∀ w ∈ vars x, w < 4000) →
      build ev bank n s x = .ok (r, s') → StepSpec ev bank b0 names (subst θ x) r s' := by
  intro n
  induction n with
  | zero => intro names s x r s' _ _ e; simp [build] at e
  | succ n ih =>
    intro names s x r s' hi hx e
    simp only [build] at e
    split at e
    · cases e
    · rename_i c hw
      simp only [Out.ok.injEq, Prod.mk.injEq] at e
      obtain ⟨rfl, rfl⟩ := e
      rcases walk_den hd hi hw hx with ⟨_, h2, _⟩ | ⟨u, _, h2, _⟩
      · rw [h2]
        exact ⟨names, hi, List.prefix_rfl, by simp [norm], by simp, fun v hv => .inl hv⟩
      · cases h2
    · rename_i v hw
      rcases walk_den hd hi hw hx with ⟨h1, h2, h3⟩ | ⟨u, hu, h2, h3⟩
      · obtain ⟨hv, hb⟩ := h3 v rfl
        rw [h2, subst_var, hd.free v hb]
        exact renameVar_spec hi (h1 v (by simp)) hv hb e
      · cases h2
        rw [h3]
        simp only [renameVar, show ¬ (4000 + names.idxOf u < 4000) by omega, if_false,
          Out.ok.injEq, Prod.mk.injEq] at e
        obtain ⟨rfl, rfl⟩ := e
        refine ⟨names, hi, List.prefix_rfl, ?_, by simpa using hu, fun v hv => .inl hv⟩
        simp [norm, renT]
    · rename_i f as hw
      split at e
      · cases e
      · cases e
      · rename_i as' s1 e1
        split at e
        · cases e
        · rename_i r' er
          simp only [Out.ok.injEq, Prod.mk.injEq] at e
          obtain ⟨rfl, rfl⟩ := e
          rcases walk_den hd hi hw hx with ⟨h1, h2, _⟩ | ⟨u, _, h2, _⟩
          · rw [h2]
            obtain ⟨n1, hi1, hp1, hn1, hv1, hb1⟩ := buildL_spec (fun names s x r s' => ih names s x r s')
              as names s as' s1 hi (by simpa using h1) e1
            refine ⟨n1, hi1, hp1, ?_, ?_, ?_⟩
            · have e2 : subst (renT bank n1) (subst θ (.app f as)) =
                  .app f (substL (renT bank n1) (substL θ as)) := by
                simp only [substL_eq_map, subst_app, List.map_map]
              rw [e2]
              simp only [norm, hn1, er]
            · intro v hv; apply hv1; simpa [substL_eq_map] using hv
            · intro v hv; rcases hb1 v hv with h | h
              · exact .inl h
              · right; simpa [substL_eq_map] using h
          · cases h2

/-! ### Totality -/

theorem BInv.acyclic {b0 : Nat → Option Term} (ha : Acyclic b0)
    (hr : ∀ v t, b0 v = some t → v < 4000 ∧ ∀ w ∈ vars t, w < 4000) {names s} (hi : BInv b0 names s) :
    Acyclic s.st.b := by
  obtain ⟨rank, hk⟩ := ha
  refine ⟨fun v => if v < 4000 then rank v + 1 else 0, ?_⟩
  rintro v w ⟨t, hb, hw⟩
  rw [hi.b] at hb
  by_cases hm : v ∈ names
  · simp only [hm, if_true, Option.some.injEq] at hb
    subst hb
    simp only [vars_var, List.mem_singleton] at hw
    subst hw
    have h4 := (hi.free v hm).2
    simp only [h4, if_true, show ¬ (4000 + names.idxOf v < 4000) by omega, if_false]; omega
  · simp only [hm, if_false] at hb
    have h1 := hr v t hb
    have h2 := hk v w ⟨t, hb, hw⟩
    simp only [h1.1, h1.2 w hw, if_true]; omega

theorem buildL_mono {f g : BSt → Term → Out (Term × BSt)}
    (h : ∀ s x, f s x ≠ .fuel → g s x = f s x) :
    ∀ as s, buildL f s as ≠ .fuel → buildL g s as = buildL f s as := by
  intro as
  induction as with
  | nil => intro s _; rfl
  | cons a as ih =>
    intro s e
    simp only [buildL] at e ⊢
    cases ef : f s a with
    | fuel => rw [ef] at e; exact absurd rfl e
    | illegal => rw [h s a (by rw [ef]; exact fun h => nomatch h), ef]
    | ok p =>
      rw [h s a (by rw [ef]; exact fun h => nomatch h), ef]
      rw [ef] at e
      have : buildL f p.2 as ≠ .fuel := by
        intro e'; simp only [e'] at e; exact absurd rfl e
      simp only [ih p.2 this]

theorem build_mono {ev bank} : ∀ {n m s x}, n ≤ m → build ev bank n s x ≠ .fuel →
    build ev bank m s x = build ev bank n s x := by
  intro n
  induction n with
  | zero => intro m s x _ e; exact absurd (by simp [build]) e
  | succ n ih =>
    intro m s x hle e
    cases m with
    | zero => omega
    | succ m =>
      simp only [build] at e ⊢
      cases ew : walk s.st.b (n + 1) x with
      | none => rw [ew] at e; exact absurd rfl e
      | some y =>
        rw [walk_mono ew hle]
        rw [ew] at e
        cases y with
        | const c => rfl
        | var v => rfl
        | app f as =>
          simp only at e ⊢
          have hne : buildL (build ev bank n) s as ≠ .fuel := by
            intro e'; rw [e'] at e; exact absurd rfl e
          rw [buildL_mono (fun s x h => ih (m := m) (by omega) h) as s hne]

/-- more than 1000 distinct variables among those -/
def Over (names : List Nat) (vs : List Nat) : Prop :=
  ∃ l : List Nat, l.Nodup ∧ 1000 < l.length ∧ ∀ v ∈ l, v ∈ names ∨ v ∈ vs

theorem Over.mono {a b c d : List Nat} (h : Over a b) (hs : ∀ v, v ∈ a ∨ v ∈ b → v ∈ c ∨ v ∈ d) : Over c d := by
  obtain ⟨l, h1, h2, h3⟩ := h
  exact ⟨l, h1, h2, fun v hv => hs v (h3 v hv)⟩

theorem buildL_total {ev bank b0} {θ : Nat → Term} (hd : Den b0 θ)  :
    ∀ as : List Term, (∀ x ∈ as, ∀ names s, BInv b0 names s → ∃ n, build ev bank n s x ≠ .fuel) →
    (∀ w ∈ varsL as, w < 4000) → ∀ names s, BInv b0 names s → ∃ n, buildL (build ev bank n) s as ≠ .fuel := by
  intro as
  induction as with
  | nil => intro _ _ names s _; exact ⟨0, by simp [buildL]⟩
  | cons a as ih =>
    intro h hw names s hi
    obtain ⟨n1, e1⟩ := h a List.mem_cons_self names s hi
    cases ef : build ev bank n1 s a with
    | fuel => exact absurd ef e1
    | illegal => exact ⟨n1, by simp [buildL, ef]⟩
    | ok p =>
      obtain ⟨nm, hi1, _⟩ := build_spec hd n1 names s a p.1 p.2 hi
        (fun w h => hw w (by simp [h])) ef
      obtain ⟨n2, e2⟩ := ih (fun x hx => h x (List.mem_cons_of_mem _ hx))
        (fun w h => hw w (by simp [h])) nm p.2 hi1
      refine ⟨max n1 n2, ?_⟩
      have ea : build ev bank (max n1 n2) s a = .ok p := by
        rw [build_mono (Nat.le_max_left n1 n2) e1, ef]
      have eb := buildL_mono (fun s x h => build_mono (ev := ev) (bank := bank) (Nat.le_max_right n1 n2) h)
        as p.2 e2
      simp only [buildL, ea, eb]
      revert e2
      cases buildL (build ev bank n2) p.2 as with
      | fuel => intro e2; exact absurd rfl e2
      | illegal => simp
      | ok q => simp

/-- the builder comes to an end -/
theorem build_total {ev bank b0} {θ : Nat → Term} (hd : Den b0 θ) (ha : Acyclic b0) :
    ∀ k x, size (subst θ x) < k → (∀ w ∈ vars x, w < 4000) → ∀ names s, BInv b0 names s →
      ∃ n, build ev bank n s x ≠ .fuel := by
  intro k
  induction k with
  | zero => intro x h; omega
  | succ k ih =>
    intro x hk hx names s hi
    obtain ⟨n1, y, ew⟩ := walk_total (hi.acyclic ha hd.rng) x
    cases n1 with
    | zero => simp [walk] at ew
    | succ n1 =>
    cases y with
    | const c => exact ⟨n1 + 1, by simp [build, ew]⟩
    | var v =>
      refine ⟨n1 + 1, ?_⟩
      simp only [build, ew, renameVar]
      split
      · split <;> exact fun h => nomatch h
      · exact fun h => nomatch h
    | app f as =>
      rcases walk_den hd hi ew hx with ⟨h1, h2, _⟩ | ⟨u, _, h2, _⟩
      · have hsz : ∀ a ∈ as, size (subst θ a) < k := by
          intro a ha'
          have : size (subst θ a) ≤ sizeL (as.map (subst θ)) :=
            size_le_sizeL (List.mem_map_of_mem ha')
          rw [h2] at hk; simp at hk; omega
        have h1' : ∀ w ∈ varsL as, w < 4000 := by simpa using h1
        obtain ⟨n2, e2⟩ := buildL_total (ev := ev) (bank := bank) hd as
          (fun a ha' => ih a (hsz a ha') (fun w hw => h1' w (mem_varsL.2 ⟨a, ha', hw⟩)))
          h1' names s hi
        refine ⟨max n1 n2 + 1, ?_⟩
        have ew' := walk_mono ew (show n1 + 1 ≤ max n1 n2 + 1 by omega)
        have eb := buildL_mono (fun s x h => build_mono (ev := ev) (bank := bank) (Nat.le_max_right n1 n2) h)
          as s e2
        simp only [build, ew', eb]
        revert e2
        cases buildL (build ev bank n2) s as with
        | fuel => intro e2; exact absurd rfl e2
        | illegal => simp
        | ok q => simp only; cases ev (.app f q.1) <;> simp
      · cases h2

/-- when evaluation never fails, building fails only for lack of variable numbers -/
theorem build_illegal {ev : Term → Option Term} (hev : ∀ t, ev t ≠ none) {bank : Nat} {b0 : Nat → Option Term}
    {θ : Nat → Term} (hd : Den b0 θ) :
    ∀ n names s x, BInv b0 names s → (∀ w ∈ vars x, w < 4000) →
      build ev bank n s x = .illegal → Over names (vars (subst θ x)) := by
  intro n
  induction n with
  | zero => intro names s x _ _ e; simp [build] at e
  | succ n ih =>
    intro names s x hi hx e
    simp only [build] at e
    split at e
    · cases e
    · cases e
    · rename_i v hw
      rcases walk_den hd hi hw hx with ⟨h1, h2, h3⟩ | ⟨u, hu, h2, h3⟩
      · obtain ⟨hv, hb⟩ := h3 v rfl
        simp only [renameVar, h1 v (by simp), if_true] at e
        split at e
        · rename_i hc
          rw [h2, subst_var, hd.free v hb]
          refine ⟨v :: names, List.nodup_cons.2 ⟨hv, hi.nodup⟩, ?_, ?_⟩
          · have := hi.vc; simp only [List.length_cons]; omega
          · intro w hw; simp at hw ⊢; exact hw.symm
        · cases e
      · cases h2
        simp only [renameVar, show ¬ (4000 + names.idxOf u < 4000) by omega, if_false] at e
        cases e
    · rename_i f as hw
      rcases walk_den hd hi hw hx with ⟨h1, h2, _⟩ | ⟨u, _, h2, _⟩
      · rw [h2]
        have key : ∀ as : List Term, (∀ w ∈ varsL as, w < 4000) → ∀ names s, BInv b0 names s →
            buildL (build ev bank n) s as = .illegal → Over names (varsL (as.map (subst θ))) := by
          intro as
          induction as with
          | nil => intro _ _ _ _ e; simp [buildL] at e
          | cons a as ihl =>
            intro hv names s hi e
            simp only [buildL] at e
            split at e
            · cases e
            · rename_i ea
              exact (ih names s a hi (fun w h => hv w (by simp [h])) ea).mono
                (by intro v h; simp; rcases h with h | h <;> simp [h])
            · rename_i a' s1 ea
              obtain ⟨nm, hi1, hp, _, hv1, hb1⟩ := build_spec hd n names s a a' s1 hi
                (fun w h => hv w (by simp [h])) ea
              split at e
              · cases e
              · rename_i eb
                refine (ihl (fun w h => hv w (by simp [h])) nm s1 hi1 eb).mono ?_
                intro v h
                simp only [List.map_cons, varsL_cons, List.mem_append]
                rcases h with h | h
                · rcases hb1 v h with h | h <;> simp [h]
                · simp [h]
              · cases e
        split at e
        · cases e
        · rename_i ea
          have := key as (by simpa using h1) names s hi ea
          simpa using this
        · rename_i as' s1 ea
          split at e
          · rename_i en; exact absurd en (hev _)
          · cases e
      · cases h2

mutual
theorem mem_vars_subst {θ : Nat → Term} {v : Nat} : ∀ {t : Term}, v ∈ vars (subst θ t) ↔ ∃ w ∈ vars t, v ∈ vars (θ w)
  | .var w => by simp
  | .const c => by simp
  | .app f as => by rw [subst, vars_app, vars_app]; exact mem_vars_substL
theorem mem_vars_substL {θ : Nat → Term} {v : Nat} : ∀ {as : List Term},
    v ∈ varsL (substL θ as) ↔ ∃ w ∈ varsL as, v ∈ vars (θ w)
  | [] => by simp [substL]
  | a :: as => by
    simp only [substL, varsL_cons, List.mem_append, mem_vars_subst (t := a), mem_vars_substL (as := as)]
    constructor
    · rintro (⟨w, h1, h2⟩ | ⟨w, h1, h2⟩)
      · exact ⟨w, .inl h1, h2⟩
      · exact ⟨w, .inr h1, h2⟩
    · rintro ⟨w, h1 | h1, h2⟩
      · exact .inl ⟨w, h1, h2⟩
      · exact .inr ⟨w, h1, h2⟩
end

/-! ### Replacement -/

/-- a term with one argument position left open -/
inductive Ctx
  | hole
  | app (f : Const) (pre : List Term) (c : Ctx) (post : List Term)

namespace Ctx
/-- the term with the open position filled -/
def fill : Ctx → Term → Term
  | hole, u => u
  | app f pre c post, u => .app f (pre ++ fill c u :: post)
/-- number of the open position when argument positions are numbered in reading order from 1 -/
def posOf : Ctx → Nat
  | hole => 0
  | app _ pre c _ => (sizeL pre + 1) + posOf c
end Ctx

theorem sizeL_append (as bs : List Term) : sizeL (as ++ bs) = sizeL as + sizeL bs := by
  induction as with
  | nil => simp
  | cons a as ih => simp [ih]; omega

theorem posOf_lt (u : Term) : ∀ C : Ctx, C.posOf < size (C.fill u)
  | .hole => by simp [Ctx.posOf, Ctx.fill, size_pos]
  | .app f pre c post => by
    have := posOf_lt u c
    simp only [Ctx.posOf, Ctx.fill, size_app, sizeL_append, sizeL_cons]; omega

/-- the number determines the place -/
theorem posOf_inj {u w : Term} : ∀ {C E : Ctx}, C.fill u = E.fill w → C.posOf = E.posOf → C = E ∧ u = w := by
  intro C
  induction C with
  | hole =>
    intro E h hp
    cases E with
    | hole => exact ⟨rfl, h⟩
    | app f pre c post => simp only [Ctx.posOf] at hp; omega
  | app f pre c post ih =>
    intro E h hp
    cases E with
    | hole => simp only [Ctx.posOf] at hp; omega
    | app g pre' c' post' =>
      simp only [Ctx.fill, Term.app.injEq] at h
      obtain ⟨rfl, h⟩ := h
      simp only [Ctx.posOf] at hp
      have key : ∀ pre pre' : List Term, pre ++ c.fill u :: post = pre' ++ c'.fill w :: post' →
          sizeL pre + c.posOf = sizeL pre' + c'.posOf → pre = pre' ∧ c.fill u = c'.fill w ∧ post = post' := by
        intro pre
        induction pre with
        | nil =>
          intro pre' h hp
          cases pre' with
          | nil => simp only [List.nil_append, List.cons.injEq] at h; exact ⟨rfl, h.1, h.2⟩
          | cons b pre' =>
            simp only [List.nil_append, List.cons_append, List.cons.injEq] at h
            have := posOf_lt u c
            rw [h.1] at this
            simp only [sizeL_nil, sizeL_cons] at hp; omega
        | cons a pre ihp =>
          intro pre' h hp
          cases pre' with
          | nil =>
            simp only [List.nil_append, List.cons_append, List.cons.injEq] at h
            have := posOf_lt w c'
            rw [← h.1] at this
            simp only [sizeL_nil, sizeL_cons] at hp; omega
          | cons b pre' =>
            simp only [List.cons_append, List.cons.injEq] at h
            obtain ⟨rfl, h⟩ := h
            simp only [sizeL_cons] at hp
            obtain ⟨rfl, h2, h3⟩ := ihp pre' h (by omega)
            exact ⟨rfl, h2, h3⟩
      obtain ⟨rfl, h2, rfl⟩ := key pre pre' h (by omega)
      obtain ⟨rfl, rfl⟩ := ih h2 (by omega)
      exact ⟨rfl, rfl⟩

theorem fill_eval {I : Interp} {ρ : Nat → I.D} {a b : Term} (h : eval I ρ a = eval I ρ b) :
    ∀ C : Ctx, eval I ρ (C.fill a) = eval I ρ (C.fill b)
  | .hole => h
  | .app f pre c post => by
    simp only [Ctx.fill, eval, evalL_eq_map, List.map_append, List.map_cons, fill_eval h c]

/-- what building with replacement does -/
def ReplSpec (ev : Term → Option Term) (bank pos : Nat) (repl : Term) (b0 : Nat → Option Term)
    (θ : Nat → Term) (names : List Nat) (x : Term) (path : Nat) (r : Term) (s' : BSt) (p' : Nat) : Prop :=
  (path + size x ≤ pos ∧ p' + 1 = path + size x ∧ StepSpec ev bank b0 names (subst θ x) r s') ∨
  (∃ C u, x = Ctx.fill C u ∧ path + C.posOf = pos ∧ pos ≤ p' ∧
    StepSpec ev bank b0 names (subst θ (C.fill repl)) r s')

def ReplSpecL (ev : Term → Option Term) (bank pos : Nat) (repl : Term) (b0 : Nat → Option Term)
    (θ : Nat → Term) (names : List Nat) (as : List Term) (path : Nat) (rs : List Term) (s' : BSt) (p' : Nat) : Prop :=
  (path + sizeL as < pos ∧ p' = path + sizeL as ∧ StepSpecL ev bank b0 names (substL θ as) rs s') ∨
  (∃ pre C u post, as = pre ++ Ctx.fill C u :: post ∧ path + (sizeL pre + 1) + C.posOf = pos ∧ pos ≤ p' ∧
    StepSpecL ev bank b0 names (substL θ (pre ++ C.fill repl :: post)) rs s')

/-- the loop after the position is passed -/
theorem replaceL_after {ev bank b0} {θ : Nat → Term} {fr : BSt → Term → Nat → Out (Term × BSt × Nat)}
    {fb : BSt → Term → Out (Term × BSt)} {pos : Nat}
    (hf : ∀ names s x r s', BInv b0 names s → (∀ w ∈ vars x, w < 4000) → fb s x = .ok (r, s') →
      StepSpec ev bank b0 names (subst θ x) r s') :
    ∀ as names s path rs s' p', pos ≤ path → BInv b0 names s → (∀ w ∈ varsL as, w < 4000) →
      replaceL fr fb pos s as path = .ok (rs, s', p') →
      pos ≤ p' ∧ StepSpecL ev bank b0 names (substL θ as) rs s' := by
  intro as
  induction as with
  | nil =>
    intro names s path rs s' p' hp hi _ e
    simp only [replaceL, Out.ok.injEq, Prod.mk.injEq] at e
    obtain ⟨rfl, rfl, rfl⟩ := e
    exact ⟨hp, .nil hi⟩
  | cons a as ih =>
    intro names s path rs s' p' hp hi hw e
    simp only [replaceL, show ¬ (path + 1 ≤ pos) by omega, if_false] at e
    cases ea : fb s a with
    | fuel => rw [ea] at e; cases e
    | illegal => rw [ea] at e; cases e
    | ok q =>
      obtain ⟨a', s1⟩ := q
      rw [ea] at e
      simp only at e
      split at e
      · cases e
      · cases e
      · rename_i as' s2 p2 eb
        simp only [Out.ok.injEq, Prod.mk.injEq] at e
        obtain ⟨rfl, rfl, rfl⟩ := e
        obtain ⟨n1, hi1, hp1, hn1, hv1, hb1⟩ := hf names s a a' s1 hi
          (fun w h => hw w (by simp [h])) ea
        obtain ⟨h1, h2⟩ := ih n1 s1 (path + 1) as' s2 p2 (by omega) hi1 (fun w h => hw w (by simp [h])) eb
        exact ⟨h1, .cons hp1 hn1 hv1 hb1 h2⟩

theorem replaceL_spec {ev bank b0} {θ : Nat → Term} {repl : Term}
    {fr : BSt → Term → Nat → Out (Term × BSt × Nat)}
    {fb : BSt → Term → Out (Term × BSt)} {pos : Nat}
    (hf : ∀ names s x r s', BInv b0 names s → (∀ w ∈ vars x, w < 4000) → fb s x = .ok (r, s') →
      StepSpec ev bank b0 names (subst θ x) r s')
    (hr : ∀ names s x path r s' p', path ≤ pos → BInv b0 names s → (∀ w ∈ vars x, w < 4000) →
      fr s x path = .ok (r, s', p') → ReplSpec ev bank pos repl b0 θ names x path r s' p') :
    ∀ as names s path rs s' p', path < pos → BInv b0 names s → (∀ w ∈ varsL as, w < 4000) →
      replaceL fr fb pos s as path = .ok (rs, s', p') →
      ReplSpecL ev bank pos repl b0 θ names as path rs s' p' := by
  intro as
  induction as with
  | nil =>
    intro names s path rs s' p' hp hi _ e
    simp only [replaceL, Out.ok.injEq, Prod.mk.injEq] at e
    obtain ⟨rfl, rfl, rfl⟩ := e
    left
    exact ⟨by simp; omega, by simp, .nil hi⟩
  | cons a as ih =>
    intro names s path rs s' p' hp hi hw e
    simp only [replaceL, show path + 1 ≤ pos by omega, if_true] at e
    cases ea : fr s a (path + 1) with
    | fuel => rw [ea] at e; cases e
    | illegal => rw [ea] at e; cases e
    | ok q =>
      obtain ⟨a', s1, p1⟩ := q
      rw [ea] at e
      simp only at e
      split at e
      · cases e
      · cases e
      · rename_i as' s2 p2 eb
        simp only [Out.ok.injEq, Prod.mk.injEq] at e
        obtain ⟨rfl, rfl, rfl⟩ := e
        have hwa : ∀ w ∈ varsL as, w < 4000 := fun w h => hw w (by simp [h])
        rcases hr names s a (path + 1) a' s1 p1 (by omega) hi (fun w h => hw w (by simp [h])) ea with
          ⟨h1, h2, n1, hi1, hp1, hn1, hv1, hb1⟩ | ⟨C, u, h1, h2, h3, n1, hi1, hp1, hn1, hv1, hb1⟩
        · rcases ih n1 s1 p1 as' s2 p2 (by omega) hi1 hwa eb with
            ⟨g1, g2, g3⟩ | ⟨pre, C, u, post, g1, g2, g3, g4⟩
          · left
            exact ⟨by simp; omega, by simp; omega, .cons hp1 hn1 hv1 hb1 g3⟩
          · right
            refine ⟨a :: pre, C, u, post, by rw [g1]; rfl, by simp; omega, g3, ?_⟩
            exact .cons hp1 hn1 hv1 hb1 g4
        · right
          obtain ⟨g1, g2⟩ := replaceL_after hf as n1 s1 p1 as' s2 p2 h3 hi1 hwa eb
          refine ⟨[], C, u, as, by rw [h1]; rfl, by simp; omega, g1, ?_⟩
          exact .cons hp1 hn1 hv1 hb1 g2

theorem StepSpec.app {ev : Term → Option Term} {bank b0 names is rs s' f r}
    (h : StepSpecL ev bank b0 names is rs s') (he : ev (.app f rs) = some r) :
    StepSpec ev bank b0 names (.app f is) r s' := by
  obtain ⟨n1, hi1, hp1, hn1, hv1, hb1⟩ := h
  refine ⟨n1, hi1, hp1, ?_, by simpa using hv1, by simpa using hb1⟩
  rw [subst]
  simp only [norm, hn1, he]

/-- building with replacement gives the evaluated renamed instance of the term with the
subterm at that position replaced -/
theorem buildRepl_spec {ev : Term → Option Term} {bank pos : Nat} {repl : Term} {b0 : Nat → Option Term}
    {θ : Nat → Term} (hd : Den b0 θ) (hrv : ∀ w ∈ vars repl, w < 4000) :
    ∀ n names s x path r s' p', path ≤ pos → BInv b0 names s → (∀ w ∈ vars x, w < 4000) →
      buildRepl ev bank pos repl n s x path = .ok (r, s', p') →
      ReplSpec ev bank pos repl b0 θ names x path r s' p' := by
  intro n
  induction n with
  | zero => intro names s x path r s' p' _ _ _ e; simp [buildRepl] at e
  | succ n ih =>
    intro names s x path r s' p' hp hi hx e
    simp only [buildRepl] at e
    split at e
    · rename_i hpp
      split at e
      · cases e
      · cases e
      · rename_i r1 s1 e1
        simp only [Out.ok.injEq, Prod.mk.injEq] at e
        obtain ⟨rfl, rfl, rfl⟩ := e
        right
        exact ⟨.hole, x, rfl, by simp [Ctx.posOf, hpp], by omega, build_spec hd _ names s repl r1 s1 hi hrv e1⟩
    · rename_i hpp
      split at e
      · rename_i c
        simp only [Out.ok.injEq, Prod.mk.injEq] at e
        obtain ⟨rfl, rfl, rfl⟩ := e
        left
        refine ⟨by simp; omega, by simp, names, hi, List.prefix_rfl, by simp [norm], by simp, fun v hv => .inl hv⟩
      · rename_i v
        split at e
        · cases e
        · cases e
        · rename_i r1 s1 e1
          simp only [Out.ok.injEq, Prod.mk.injEq] at e
          obtain ⟨rfl, rfl, rfl⟩ := e
          left
          exact ⟨by simp; omega, by simp, build_spec hd _ names s _ r1 s1 hi hx e1⟩
      · rename_i f as
        split at e
        · cases e
        · cases e
        · rename_i as' s1 p1 e1
          split at e
          · cases e
          · rename_i r1 er
            simp only [Out.ok.injEq, Prod.mk.injEq] at e
            obtain ⟨rfl, rfl, rfl⟩ := e
            rcases replaceL_spec (fun names s x r s' => build_spec hd n names s x r s')
              (fun names s x path r s' p' => ih names s x path r s' p') as names s path as' s1 p1 (by omega) hi (by simpa using hx) e1 with
              ⟨h1, h2, h3⟩ | ⟨pre, C, u, post, h1, h2, h3, h4⟩
            · left
              exact ⟨by rw [size_app]; omega, by rw [size_app]; omega, by rw [subst]; exact StepSpec.app h3 er⟩
            · right
              refine ⟨.app f pre C post, u, by rw [h1]; rfl, by simp only [Ctx.posOf]; omega, h3, ?_⟩
              simp only [Ctx.fill]
              rw [subst]
              exact StepSpec.app h4 er

/-! ### Clause copies -/

theorem copyLits_spec {ev : Term → Option Term} {bank : Nat} {b0 : Nat → Option Term} {θ : Nat → Term}
    (hd : Den b0 θ) (n : Nat) :
    ∀ cl names s r s', BInv b0 names s → (∀ l ∈ cl, ∀ w ∈ vars l.atom, w < 4000) →
      copyLits ev bank n s cl = .ok r s' →
      r.map Lit.neg = cl.map Lit.neg ∧
      StepSpecL ev bank b0 names (cl.map (fun l => subst θ l.atom)) (r.map Lit.atom) s' := by
  intro cl
  induction cl with
  | nil =>
    intro names s r s' hi _ e
    simp only [copyLits, ClOut.ok.injEq] at e
    obtain ⟨rfl, rfl⟩ := e
    exact ⟨rfl, .nil hi⟩
  | cons l ls ih =>
    intro names s r s' hi hw e
    simp only [copyLits] at e
    split at e
    · cases e
    · cases e
    · rename_i a s1 ea
      split at e
      · cases e
      · split at e
        · cases e
        · split at e
          · rename_i ls' s2 eb
            simp only [ClOut.ok.injEq] at e
            obtain ⟨rfl, rfl⟩ := e
            obtain ⟨n1, hi1, hp1, hn1, hv1, hb1⟩ := build_spec hd n names s l.atom a s1 hi
              (hw l List.mem_cons_self) ea
            obtain ⟨h1, h2⟩ := ih n1 s1 ls' s2 hi1 (fun l hl => hw l (List.mem_cons_of_mem _ hl)) eb
            exact ⟨by simp [h1], .cons hp1 hn1 hv1 hb1 h2⟩
          · rename_i hne
            exact absurd e (hne r s')

theorem copyLits_illegal {ev : Term → Option Term} (hev : ∀ t, ev t ≠ none) {bank : Nat}
    {b0 : Nat → Option Term} {θ : Nat → Term} (hd : Den b0 θ) (n : Nat) :
    ∀ cl names s, BInv b0 names s → (∀ l ∈ cl, ∀ w ∈ vars l.atom, w < 4000) →
      copyLits ev bank n s cl = .illegal → Over names (varsL (cl.map (fun l => subst θ l.atom))) := by
  intro cl
  induction cl with
  | nil => intro names s _ _ e; simp [copyLits] at e
  | cons l ls ih =>
    intro names s hi hw e
    simp only [copyLits] at e
    split at e
    · cases e
    · rename_i ea
      refine (build_illegal hev hd n names s l.atom hi (hw l List.mem_cons_self) ea).mono ?_
      intro v h; simp; rcases h with h | h <;> simp [h]
    · rename_i a s1 ea
      split at e
      · cases e
      · split at e
        · cases e
        · split at e
          · cases e
          · obtain ⟨n1, hi1, hp1, hn1, hv1, hb1⟩ := build_spec hd n names s l.atom a s1 hi
              (hw l List.mem_cons_self) ea
            refine (ih n1 s1 hi1 (fun l hl => hw l (List.mem_cons_of_mem _ hl)) e).mono ?_
            intro v h
            simp only [List.map_cons, varsL_cons, List.mem_append]
            rcases h with h | h
            · rcases hb1 v h with h | h <;> simp [h]
            · simp [h]

theorem copyLits_truth {ev : Term → Option Term} {bank : Nat}
    {b0 : Nat → Option Term} {θ : Nat → Term} (hd : Den b0 θ) (n : Nat) :
    ∀ cl names s b, BInv b0 names s → (∀ l ∈ cl, ∀ w ∈ vars l.atom, w < 4000) →
      copyLits ev bank n s cl = .truth b →
      ∃ l ∈ cl, ∃ names', norm ev (subst (renT bank names') (subst θ l.atom)) =
        some (.const (if b then aTrue else aFalse)) := by
  intro cl
  induction cl with
  | nil => intro names s b _ _ e; simp [copyLits] at e
  | cons l ls ih =>
    intro names s b hi hw e
    simp only [copyLits] at e
    split at e
    · cases e
    · cases e
    · rename_i a s1 ea
      obtain ⟨n1, hi1, hp1, hn1, hv1, hb1⟩ := build_spec hd n names s l.atom a s1 hi
        (hw l List.mem_cons_self) ea
      split at e
      · rename_i h
        simp only [ClOut.truth.injEq] at e; subst e
        exact ⟨l, List.mem_cons_self, n1, by rw [hn1, (beq_iff _ _).1 h]; rfl⟩
      · split at e
        · rename_i h
          simp only [ClOut.truth.injEq] at e; subst e
          exact ⟨l, List.mem_cons_self, n1, by rw [hn1, (beq_iff _ _).1 h]; rfl⟩
        · split at e
          · cases e
          · obtain ⟨l', hl', h⟩ := ih n1 s1 b hi1 (fun l hl => hw l (List.mem_cons_of_mem _ hl)) e
            exact ⟨l', List.mem_cons_of_mem _ hl', h⟩

theorem copyLits_total {ev : Term → Option Term} {bank : Nat}
    {b0 : Nat → Option Term} {θ : Nat → Term} (hd : Den b0 θ) (ha : Acyclic b0) :
    ∀ cl names s, BInv b0 names s → (∀ l ∈ cl, ∀ w ∈ vars l.atom, w < 4000) →
      ∃ n0, ∀ n, n0 ≤ n → copyLits ev bank n s cl ≠ .fuel := by
  intro cl
  induction cl with
  | nil => intro names s _ _; exact ⟨0, fun n _ => by simp [copyLits]⟩
  | cons l ls ih =>
    intro names s hi hw
    obtain ⟨n1, e1⟩ := build_total (ev := ev) (bank := bank) hd ha _ l.atom (Nat.lt_succ_self _)
      (hw l List.mem_cons_self) names s hi
    cases eb : build ev bank n1 s l.atom with
    | fuel => exact absurd eb e1
    | illegal =>
      refine ⟨n1, fun n hn => ?_⟩
      simp [copyLits, build_mono hn e1, eb]
    | ok p =>
      obtain ⟨nm, hi1, _⟩ := build_spec hd n1 names s l.atom p.1 p.2 hi (hw l List.mem_cons_self) eb
      obtain ⟨n2, e2⟩ := ih nm p.2 hi1 (fun l hl => hw l (List.mem_cons_of_mem _ hl))
      refine ⟨max n1 n2, fun n hn => ?_⟩
      have e2' := e2 n (by omega)
      simp only [copyLits, build_mono (show n1 ≤ n by omega) e1, eb]
      split
      · exact fun h => nomatch h
      · split
        · exact fun h => nomatch h
        · revert e2'
          cases copyLits ev bank n p.2 ls <;> simp

/-- bindings without cycles denote a substitution -/
theorem den_of_acyclic {st : St} (hr : Rng 4000 st) (ha : Acyclic st.b) : ∃ θ, Den st.b θ ∧
    ∀ τ, Solves τ st.b → ∀ v, τ v = subst τ (θ v) := by
  obtain ⟨θ, h1, h2, h3⟩ := ha.solution
  exact ⟨θ, ⟨fun v t h => h1 v t h, h2, hr⟩, h3⟩

/-! ### Only new bindings -/

theorem buildL_ext {f : BSt → Term → Out (Term × BSt)} (hf : ∀ s x r s', f s x = .ok (r, s') → St.Ext s.st s'.st) :
    ∀ as s rs s', buildL f s as = .ok (rs, s') → St.Ext s.st s'.st := by
  intro as
  induction as with
  | nil =>
    intro s rs s' e
    simp only [buildL, Out.ok.injEq, Prod.mk.injEq] at e
    rw [← e.2]; exact .refl _
  | cons a as ih =>
    intro s rs s' e
    simp only [buildL] at e
    split at e
    · cases e
    · cases e
    · rename_i a' s1 ea
      split at e
      · cases e
      · cases e
      · rename_i as' s2 eb
        simp only [Out.ok.injEq, Prod.mk.injEq] at e
        rw [← e.2]
        exact (hf _ _ _ _ ea).trans (ih _ _ _ eb)

theorem build_ext {ev bank} : ∀ n s x r s', build ev bank n s x = .ok (r, s') → St.Ext s.st s'.st := by
  intro n
  induction n with
  | zero => intro s x r s' e; simp [build] at e
  | succ n ih =>
    intro s x r s' e
    simp only [build] at e
    split at e
    · cases e
    · simp only [Out.ok.injEq, Prod.mk.injEq] at e
      rw [← e.2]; exact .refl _
    · rename_i v hw
      have hb := walk_unbound hw
      simp only [renameVar] at e
      split at e
      · split at e
        · cases e
        · simp only [Out.ok.injEq, Prod.mk.injEq] at e
          rw [← e.2]; exact .set hb
      · simp only [Out.ok.injEq, Prod.mk.injEq] at e
        rw [← e.2]; exact .refl _
    · split at e
      · cases e
      · cases e
      · rename_i as' s1 ea
        split at e
        · cases e
        · simp only [Out.ok.injEq, Prod.mk.injEq] at e
          rw [← e.2]; exact buildL_ext (fun s x r s' => ih s x r s') _ _ _ _ ea

theorem copyLits_ext {ev bank n} : ∀ cl s r s', copyLits ev bank n s cl = .ok r s' → St.Ext s.st s'.st := by
  intro cl
  induction cl with
  | nil =>
    intro s r s' e
    simp only [copyLits, ClOut.ok.injEq] at e
    rw [← e.2]; exact .refl _
  | cons l ls ih =>
    intro s r s' e
    simp only [copyLits] at e
    split at e
    · cases e
    · cases e
    · rename_i a s1 ea
      split at e
      · cases e
      · split at e
        · cases e
        · split at e
          · rename_i ls' s2 eb
            simp only [ClOut.ok.injEq] at e
            rw [← e.2]; exact (build_ext _ _ _ _ _ ea).trans (ih _ _ _ eb)
          · rename_i hne
            exact absurd e (hne r s')

end Gkc
