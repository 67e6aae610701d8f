import Verif.Derive
import Verif.BuildLemmas
/- Lemmas about assembling derived clauses. -/
namespace Gkc
open Term

/-- the truth constants have their meaning -/
def TruthOk (I : Interp) : Prop := I.tr (I.cst aTrue) ∧ ¬ I.tr (I.cst aFalse)

/-- a literal true everywhere because of a truth constant -/
def TrueLit (l : Lit) : Prop := (l.neg = false ∧ l.atom = .const aTrue) ∨ (l.neg = true ∧ l.atom = .const aFalse)
/-- a literal false everywhere because of a truth constant -/
def FalseLit (l : Lit) : Prop := (l.neg = true ∧ l.atom = .const aTrue) ∨ (l.neg = false ∧ l.atom = .const aFalse)

theorem TrueLit.tr {I : Interp} (h : TruthOk I) {l : Lit} (hl : TrueLit l) (ρ : Nat → I.D) : l.tr I ρ := by
  obtain ⟨n, a⟩ := l
  rcases hl with ⟨h1, h2⟩ | ⟨h1, h2⟩ <;> simp only at h1 h2 <;> subst h1 <;> subst h2
  · simpa [Lit.tr, eval] using h.1
  · simpa [Lit.tr, eval] using h.2

theorem FalseLit.not_tr {I : Interp} (h : TruthOk I) {l : Lit} (hl : FalseLit l) (ρ : Nat → I.D) : ¬ l.tr I ρ := by
  obtain ⟨n, a⟩ := l
  rcases hl with ⟨h1, h2⟩ | ⟨h1, h2⟩ <;> simp only at h1 h2 <;> subst h1 <;> subst h2
  · simpa [Lit.tr, eval] using h.1
  · simpa [Lit.tr, eval] using h.2

/-- same atom, opposite sign -/
def Compl (l k : Lit) : Prop := l.neg ≠ k.neg ∧ l.atom = k.atom

theorem Compl.tr {I : Interp} {l k : Lit} (h : Compl l k) (ρ : Nat → I.D) : l.tr I ρ ∨ k.tr I ρ := by
  obtain ⟨ln, la⟩ := l
  obtain ⟨kn, ka⟩ := k
  obtain ⟨h1, h2⟩ := h
  simp only at h1 h2
  subst h2
  by_cases ht : I.tr (eval I ρ la)
  · cases ln <;> cases kn <;> simp_all [Lit.tr]
  · cases ln <;> cases kn <;> simp_all [Lit.tr]

theorem findSame_some {neg a} : ∀ {rs b}, findSame neg a rs = some b →
    ∃ r ∈ rs, r.atom = a ∧ b = (neg == r.neg) := by
  intro rs
  induction rs with
  | nil => intro b h; simp [findSame] at h
  | cons r rs ih =>
    intro b h
    simp only [findSame] at h
    split at h
    · rename_i he
      simp only [Option.some.injEq] at h
      exact ⟨r, List.mem_cons_self, ((eqTerm_iff _ _).1 he).symm, h.symm⟩
    · obtain ⟨k, hk, h2⟩ := ih h
      exact ⟨k, List.mem_cons_of_mem _ hk, h2⟩

theorem findSame_none {neg a} : ∀ {rs}, findSame neg a rs = none → ∀ r ∈ rs, r.atom ≠ a := by
  intro rs
  induction rs with
  | nil => intro _ r hr; cases hr
  | cons k rs ih =>
    intro h r hr
    simp only [findSame] at h
    split at h
    · cases h
    · rename_i he
      rcases List.mem_cons.1 hr with rfl | hr
      · intro e; exact he ((eqTerm_iff _ _).2 e.symm)
      · exact ih h r hr

/-- `rs'` is `rs` with the literals `Ns` merged in -/
structure Merged (rs Ns rs' : List Lit) : Prop where
  pre : rs <+: rs'
  all : ∀ l ∈ Ns, l ∈ rs' ∨ FalseLit l
  only : ∀ l ∈ rs', l ∈ rs ∨ l ∈ Ns
  nodup : (rs.map Lit.atom).Nodup → (rs'.map Lit.atom).Nodup
  notruth : ∀ l ∈ rs', l ∈ rs ∨ (l.atom ≠ .const aTrue ∧ l.atom ≠ .const aFalse)

theorem Merged.refl (rs : List Lit) : Merged rs [] rs :=
  ⟨List.prefix_rfl, by simp, fun l h => .inl h, id, fun l h => .inl h⟩

theorem Merged.cons {a b c : List Lit} {l : Lit} {ls : List Lit} (h1 : Merged a [l] b) (h2 : Merged b ls c) :
    Merged a (l :: ls) c := by
  refine ⟨h1.pre.trans h2.pre, ?_, ?_, fun h => h2.nodup (h1.nodup h), ?_⟩
  · intro k hk
    rcases List.mem_cons.1 hk with rfl | hk
    · rcases h1.all k (by simp) with h | h
      · exact .inl (h2.pre.subset h)
      · exact .inr h
    · exact h2.all k hk
  · intro k hk
    rcases h2.only k hk with h | h
    · rcases h1.only k h with h | h
      · exact .inl h
      · right; simp at h; simp [h]
    · right; simp [h]
  · intro k hk
    rcases h2.notruth k hk with h | h
    · exact h1.notruth k h
    · exact .inr h

theorem asmStep_ok {rs s neg a rs' s'} (h : asmStep rs s neg a = .ok rs' s') :
    s' = s ∧ Merged rs [⟨neg, a⟩] rs' := by
  simp only [asmStep] at h
  split at h
  · rename_i e
    have e := (beq_iff _ _).1 e
    split at h
    · rename_i hn
      simp only [Asm.ok.injEq] at h
      obtain ⟨rfl, rfl⟩ := h
      refine ⟨rfl, List.prefix_rfl, ?_, fun l hl => .inl hl, id, fun l hl => .inl hl⟩
      intro l hl; simp only [List.mem_singleton] at hl; subst hl
      right; left; exact ⟨hn, e⟩
    · cases h
  · rename_i ne1
    split at h
    · rename_i e
      have e := (beq_iff _ _).1 e
      split at h
      · cases h
      · rename_i hn
        simp only [Asm.ok.injEq] at h
        obtain ⟨rfl, rfl⟩ := h
        refine ⟨rfl, List.prefix_rfl, ?_, fun l hl => .inl hl, id, fun l hl => .inl hl⟩
        intro l hl; simp only [List.mem_singleton] at hl; subst hl
        right; right; exact ⟨by simpa using hn, e⟩
    · rename_i ne2
      split at h
      · rename_i hf
        simp only [Asm.ok.injEq] at h
        obtain ⟨rfl, rfl⟩ := h
        refine ⟨rfl, List.prefix_rfl, ?_, fun l hl => .inl hl, id, fun l hl => .inl hl⟩
        intro l hl; simp only [List.mem_singleton] at hl; subst hl
        obtain ⟨r, hr, h1, h2⟩ := findSame_some hf
        left
        have : r = ⟨neg, a⟩ := by cases r; simp_all
        rw [← this]; exact hr
      · cases h
      · rename_i hf
        simp only [Asm.ok.injEq] at h
        obtain ⟨rfl, rfl⟩ := h
        refine ⟨rfl, List.prefix_append _ _, by simp, by simp, ?_, ?_⟩
        · intro hn
          rw [List.map_append, List.nodup_append]
          refine ⟨hn, by simp, ?_⟩
          intro x hx y hy hxy
          simp only [List.map_cons, List.map_nil, List.mem_singleton] at hy
          subst hy; subst hxy
          obtain ⟨r, hr, e⟩ := List.mem_map.1 hx
          exact findSame_none hf r hr e
        · intro l hl
          rcases List.mem_append.1 hl with h | h
          · exact .inl h
          · simp only [List.mem_singleton] at h; subst h
            right
            exact ⟨fun e => ne1 ((beq_iff _ _).2 e), fun e => ne2 ((beq_iff _ _).2 e)⟩

theorem asmStep_taut {rs s neg a} (h : asmStep rs s neg a = .taut) :
    TrueLit ⟨neg, a⟩ ∨ ∃ r ∈ rs, Compl ⟨neg, a⟩ r := by
  simp only [asmStep] at h
  split at h
  · rename_i e
    have e := (beq_iff _ _).1 e
    split at h
    · cases h
    · rename_i hn; left; left; exact ⟨by simpa using hn, e⟩
  · split at h
    · rename_i e
      have e := (beq_iff _ _).1 e
      split at h
      · rename_i hn; left; right; exact ⟨hn, e⟩
      · cases h
    · split at h
      · cases h
      · rename_i hf
        obtain ⟨r, hr, h1, h2⟩ := findSame_some hf
        right
        refine ⟨r, hr, ?_, h1.symm⟩
        intro e; simp only at e; subst e; simp at h2
      · cases h

theorem asmStep_cases {rs s neg a} : asmStep rs s neg a ≠ .fuel ∧ asmStep rs s neg a ≠ .illegal := by
  simp only [asmStep]
  constructor <;> (repeat' split) <;> exact fun h => nomatch h

/-- the instance of atom number `i` that is to be built -/
def InstOf (θ : Nat → Term) (repl : Option (Nat × Nat × Term)) (i : Nat) (a inst : Term) : Prop :=
  match repl with
  | none => inst = subst θ a
  | some (ln, pos, t) =>
    if i = ln then (∃ C u, a = Ctx.fill C u ∧ C.posOf = pos ∧ inst = subst θ (C.fill t)) ∨
      (size a ≤ pos ∧ inst = subst θ a)
    else inst = subst θ a

/-- the instances of the literals to be collected -/
inductive Picked (θ : Nat → Term) (cut : Option Nat) (repl : Option (Nat × Nat × Term)) :
    Nat → List ALit → List Lit → Prop
  | nil {i} : Picked θ cut repl i [] []
  | skip {i l ls Ls} : cut = some l.addr → Picked θ cut repl (i + 1) ls Ls → Picked θ cut repl i (l :: ls) Ls
  | take {i l ls Ls inst} : cut ≠ some l.addr → InstOf θ repl i l.atom inst →
      Picked θ cut repl (i + 1) ls Ls → Picked θ cut repl i (l :: ls) (⟨l.neg, inst⟩ :: Ls)

theorem asmAtom_spec {ev : Term → Option Term} {bank : Nat} {b0 : Nat → Option Term} {θ : Nat → Term}
    (hd : Den b0 θ) {n : Nat} {repl : Option (Nat × Nat × Term)}
    (hrv : ∀ ln pos t, repl = some (ln, pos, t) → ∀ w ∈ vars t, w < 4000) {i names s a r s'}
    (hi : BInv b0 names s) (ha : ∀ w ∈ vars a, w < 4000) (h : asmAtom ev bank n repl i s a = .ok (r, s')) :
    ∃ inst, InstOf θ repl i a inst ∧ StepSpec ev bank b0 names inst r s' := by
  cases repl with
  | none => exact ⟨_, rfl, build_spec hd n names s a r s' hi ha h⟩
  | some q =>
    obtain ⟨ln, pos, t⟩ := q
    simp only [asmAtom] at h
    by_cases hl : i = ln
    · rw [if_pos hl] at h
      split at h
      · cases h
      · cases h
      · rename_i r1 s1 p1 e1
        simp only [Out.ok.injEq, Prod.mk.injEq] at h
        obtain ⟨rfl, rfl⟩ := h
        simp only [InstOf, hl, if_true]
        rcases buildRepl_spec hd (hrv ln pos t rfl) n names s a 0 r1 s1 p1 (Nat.zero_le _) hi ha e1 with
          ⟨h1, _, h2⟩ | ⟨C, u, h1, h2, _, h4⟩
        · exact ⟨_, .inr ⟨by omega, rfl⟩, h2⟩
        · exact ⟨_, .inl ⟨C, u, h1, by omega, rfl⟩, h4⟩
    · rw [if_neg hl] at h
      simp only [InstOf, hl, if_false]
      exact ⟨_, rfl, build_spec hd n names s a r s' hi ha h⟩

/-- the built literals -/
inductive Built (ev : Term → Option Term) (bank : Nat) (names : List Nat) : List Lit → List Lit → Prop
  | nil : Built ev bank names [] []
  | cons {l l' ls ls'} : (l'.neg = l.neg ∧ norm ev (subst (renT bank names) l.atom) = some l'.atom ∧
      ∀ v ∈ vars l.atom, v ∈ names) → Built ev bank names ls ls' → Built ev bank names (l :: ls) (l' :: ls')

theorem Built.mono {ev bank names names' Ls Ns} (h : Built ev bank names Ls Ns) (hp : names <+: names') :
    Built ev bank names' Ls Ns := by
  induction h with
  | nil => exact .nil
  | cons h _ ih =>
    obtain ⟨h1, h2, h3⟩ := h
    exact .cons ⟨h1, by rw [renT_prefix hp h3]; exact h2, fun v hv => hp.subset (h3 v hv)⟩ ih

theorem asmCl_spec {ev : Term → Option Term} {bank : Nat} {b0 : Nat → Option Term} {θ : Nat → Term}
    (hd : Den b0 θ) {n : Nat} {cut : Option Nat} {repl : Option (Nat × Nat × Term)}
    (hrv : ∀ ln pos t, repl = some (ln, pos, t) → ∀ w ∈ vars t, w < 4000) :
    ∀ cl i rs s names rs' s', BInv b0 names s → (∀ l ∈ cl, ∀ w ∈ vars l.atom, w < 4000) →
      asmCl ev bank n cut repl i rs s cl = .ok rs' s' →
      ∃ Ls Ns names', Picked θ cut repl i cl Ls ∧ BInv b0 names' s' ∧ names <+: names' ∧
        Built ev bank names' Ls Ns ∧ Merged rs Ns rs' ∧
        ∀ v ∈ names', v ∈ names ∨ ∃ l ∈ Ls, v ∈ vars l.atom := by
  intro cl
  induction cl with
  | nil =>
    intro i rs s names rs' s' hi _ h
    simp only [asmCl, Asm.ok.injEq] at h
    obtain ⟨rfl, rfl⟩ := h
    exact ⟨[], [], names, .nil, hi, List.prefix_rfl, .nil, .refl _, fun v hv => .inl hv⟩
  | cons l ls ih =>
    intro i rs s names rs' s' hi hw h
    have hwl := hw l List.mem_cons_self
    have hws : ∀ l ∈ ls, ∀ w ∈ vars l.atom, w < 4000 := fun k hk => hw k (List.mem_cons_of_mem _ hk)
    simp only [asmCl] at h
    split at h
    · rename_i hc
      obtain ⟨Ls, Ns, names', h1, h2⟩ := ih (i + 1) rs s names rs' s' hi hws h
      exact ⟨Ls, Ns, names', .skip hc h1, h2⟩
    · rename_i hc
      split at h
      · cases h
      · cases h
      · rename_i a s1 ea
        obtain ⟨inst, hinst, n1, hi1, hp1, hn1, hv1, hb1⟩ := asmAtom_spec hd hrv hi hwl ea
        split at h
        · rename_i rs1 s2 es
          obtain ⟨rfl, hm⟩ := asmStep_ok es
          obtain ⟨Ls, Ns, n2, h1, hi2, hp2, hB, hM, hb2⟩ := ih (i + 1) rs1 s2 n1 rs' s' hi1 hws h
          refine ⟨⟨l.neg, inst⟩ :: Ls, ⟨l.neg, a⟩ :: Ns, n2, .take hc hinst h1, hi2, hp1.trans hp2, ?_, hm.cons hM, ?_⟩
          · refine Built.cons ⟨rfl, ?_, fun v hv => hp2.subset (hv1 v hv)⟩ hB
            rw [renT_prefix hp2 hv1]; exact hn1
          · intro v hv
            rcases hb2 v hv with h | ⟨k, hk, h⟩
            · rcases hb1 v h with h | h
              · exact .inl h
              · exact .inr ⟨_, List.mem_cons_self, h⟩
            · exact .inr ⟨k, List.mem_cons_of_mem _ hk, h⟩
        · rename_i hne
          exact absurd h (hne rs' s')

/-- when the clause is dropped as always true, the literals collected so far show it -/
theorem asmCl_taut {ev : Term → Option Term} {bank : Nat} {b0 : Nat → Option Term} {θ : Nat → Term}
    (hd : Den b0 θ) {n : Nat} {cut : Option Nat} {repl : Option (Nat × Nat × Term)}
    (hrv : ∀ ln pos t, repl = some (ln, pos, t) → ∀ w ∈ vars t, w < 4000) :
    ∀ cl i rs s names, BInv b0 names s → (∀ l ∈ cl, ∀ w ∈ vars l.atom, w < 4000) →
      asmCl ev bank n cut repl i rs s cl = .taut →
      ∃ pre post Ls Ns names', cl = pre ++ post ∧ Picked θ cut repl i pre Ls ∧ names <+: names' ∧ names'.Nodup ∧
        Built ev bank names' Ls Ns ∧ ∃ l ∈ Ns, TrueLit l ∨ ∃ k, (k ∈ rs ∨ k ∈ Ns) ∧ Compl l k := by
  intro cl
  induction cl with
  | nil => intro i rs s names _ _ h; simp [asmCl] at h
  | cons l ls ih =>
    intro i rs s names hi hw h
    have hwl := hw l List.mem_cons_self
    have hws : ∀ l ∈ ls, ∀ w ∈ vars l.atom, w < 4000 := fun k hk => hw k (List.mem_cons_of_mem _ hk)
    simp only [asmCl] at h
    split at h
    · rename_i hc
      obtain ⟨pre, post, Ls, Ns, names', h0, h1, h2⟩ := ih (i + 1) rs s names hi hws h
      exact ⟨l :: pre, post, Ls, Ns, names', by rw [h0]; rfl, .skip hc h1, h2⟩
    · rename_i hc
      split at h
      · cases h
      · cases h
      · rename_i a s1 ea
        obtain ⟨inst, hinst, n1, hi1, hp1, hn1, hv1, hb1⟩ := asmAtom_spec hd hrv hi hwl ea
        split at h
        · rename_i rs1 s2 es
          obtain ⟨rfl, hm⟩ := asmStep_ok es
          obtain ⟨pre, post, Ls, Ns, n2, h0, h1, hp2, hnd, hB, k, hk, hT⟩ := ih (i + 1) rs1 s2 n1 hi1 hws h
          refine ⟨l :: pre, post, ⟨l.neg, inst⟩ :: Ls, ⟨l.neg, a⟩ :: Ns, n2, by rw [h0]; rfl, .take hc hinst h1,
            hp1.trans hp2, hnd, ?_, k, List.mem_cons_of_mem _ hk, ?_⟩
          · refine Built.cons ⟨rfl, ?_, fun v hv => hp2.subset (hv1 v hv)⟩ hB
            rw [renT_prefix hp2 hv1]; exact hn1
          · rcases hT with h | ⟨m, h | h, hc⟩
            · exact .inl h
            · rcases hm.only m h with h | h
              · exact .inr ⟨m, .inl h, hc⟩
              · simp only [List.mem_singleton] at h
                exact .inr ⟨m, .inr (by rw [h]; exact List.mem_cons_self), hc⟩
            · exact .inr ⟨m, .inr (List.mem_cons_of_mem _ h), hc⟩
        · refine ⟨[l], ls, [⟨l.neg, inst⟩], [⟨l.neg, a⟩], n1, rfl, .take hc hinst .nil, hp1, hi1.nodup,
            .cons ⟨rfl, hn1, hv1⟩ .nil, _, List.mem_cons_self, ?_⟩
          rcases asmStep_taut h with h | ⟨r, hr, h⟩
          · exact .inl h
          · exact .inr ⟨r, .inl hr, h⟩

/-! ### Meaning -/

theorem Built.tr {I : Interp} {ev : Term → Option Term} (hev : EvSound I ev) {bank : Nat} {names : List Nat} {ρ : Nat → I.D} :
    ∀ {Ls Ns : List Lit}, Built ev bank names Ls Ns →
    ((∃ l ∈ Ns, l.tr I ρ) ↔ ∃ l ∈ Ls, l.tr I (fun v => ρ (bank * 1000 + names.idxOf v))) := by
  intro Ls Ns h
  induction h with
  | nil => simp
  | cons h _ ih =>
    rename_i l l' ls ls' _
    obtain ⟨h1, h2, _⟩ := h
    have e : l'.tr I ρ ↔ l.tr I (fun v => ρ (bank * 1000 + names.idxOf v)) := by
      have := norm_eval hev ρ _ _ h2
      rw [eval_subst] at this
      simp only [renT, eval] at this
      simp only [Lit.tr, h1, this]
    simp only [List.mem_cons, exists_eq_or_imp, e, ih]

theorem Merged.tr {I : Interp} (ht : TruthOk I) {rs Ns rs' : List Lit} (h : Merged rs Ns rs') (ρ : Nat → I.D) :
    (∃ l ∈ rs', l.tr I ρ) ↔ ((∃ l ∈ rs, l.tr I ρ) ∨ ∃ l ∈ Ns, l.tr I ρ) := by
  constructor
  · rintro ⟨l, hl, htr⟩
    rcases h.only l hl with h | h
    · exact .inl ⟨l, h, htr⟩
    · exact .inr ⟨l, h, htr⟩
  · rintro (⟨l, hl, htr⟩ | ⟨l, hl, htr⟩)
    · exact ⟨l, h.pre.subset hl, htr⟩
    · rcases h.all l hl with h | h
      · exact ⟨l, h, htr⟩
      · exact absurd htr (h.not_tr ht ρ)

/-! ### Shape of the collected literals -/

theorem Built.append {ev bank names a b c d} (h1 : Built ev bank names a b) (h2 : Built ev bank names c d) :
    Built ev bank names (a ++ c) (b ++ d) := by
  induction h1 with
  | nil => exact h2
  | cons h _ ih => exact .cons h ih

theorem Merged.append {a b c N M : List Lit} (h1 : Merged a N b) (h2 : Merged b M c) : Merged a (N ++ M) c := by
  refine ⟨h1.pre.trans h2.pre, ?_, ?_, fun h => h2.nodup (h1.nodup h), ?_⟩
  · intro k hk
    rcases List.mem_append.1 hk with hk | hk
    · rcases h1.all k hk with h | h
      · exact .inl (h2.pre.subset h)
      · exact .inr h
    · exact h2.all k hk
  · intro k hk
    rcases h2.only k hk with h | h
    · rcases h1.only k h with h | h
      · exact .inl h
      · exact .inr (List.mem_append_left _ h)
    · exact .inr (List.mem_append_right _ h)
  · intro k hk
    rcases h2.notruth k hk with h | h
    · exact h1.notruth k h
    · exact .inr h

/-- the literals of a clause other than those at address `a` -/
def others (a : Nat) (cl : List ALit) : List Lit := (cl.filter (fun l => l.addr != a)).map ALit.lit

theorem picked_cut {θ : Nat → Term} {a : Nat} : ∀ {cl i Ls}, Picked θ (some a) none i cl Ls →
    Ls = (others a cl).map (Lit.subst θ) := by
  intro cl
  induction cl with
  | nil => intro i Ls h; cases h; rfl
  | cons l ls ih =>
    intro i Ls h
    cases h with
    | skip hc h =>
      simp only [Option.some.injEq] at hc
      rw [ih h]; simp [others, hc]
    | take hc hi h =>
      have hc' : l.addr ≠ a := fun e => hc (by rw [e])
      simp only [InstOf] at hi
      rw [ih h, hi]; simp [others, hc', Lit.subst, ALit.lit]

theorem picked_pre {θ : Nat → Term} {a : Nat} {pre post : List ALit} {i Ls}
    (h : Picked θ (some a) none i pre Ls) : ∀ l ∈ Ls, l ∈ (others a (pre ++ post)).map (Lit.subst θ) := by
  rw [picked_cut h]
  intro l hl
  simp only [others, List.filter_append, List.map_append]
  exact List.mem_append_left _ (by simpa [others] using hl)

/-- what is known of collected literals: `Ls` the instances, `rs` the result -/
structure Collected (ev : Term → Option Term) (bank : Nat) (Ls rs : List Lit) : Prop where
  shape : ∃ names Ns, names.Nodup ∧ names.length ≤ 1000 ∧ Built ev bank names Ls Ns ∧ Merged [] Ns rs

/-- what is known when the collected literals were found always true -/
structure CollectedTaut (ev : Term → Option Term) (bank : Nat) (Ls : List Lit) : Prop where
  shape : ∃ Ls' names Ns, names.Nodup ∧ (∀ l ∈ Ls', l ∈ Ls) ∧ Built ev bank names Ls' Ns ∧
    ∃ l ∈ Ns, TrueLit l ∨ ∃ k ∈ Ns, Compl l k

theorem len_one {cl : List ALit} (h : ¬ cl.length > 1) {x : ALit} (hx : x ∈ cl) : cl = [x] := by
  match cl, h, hx with
  | [y], _, hx => simp at hx; rw [hx]
  | _ :: _ :: _, h, _ => simp at h

theorem others_single (x : ALit) : others x.addr [x] = [] := by simp [others]

theorem optional_spec {ev : Term → Option Term} {bank n : Nat} {st : St} {θ : Nat → Term} (hd : Den st.b θ)
    {cl : List ALit} {x : ALit} (hx : x ∈ cl) (hw : ∀ l ∈ cl, ∀ w ∈ vars l.atom, w < 4000) {rs0 rs : List Lit} {s0 s : BSt}
    {nm : List Nat} (hi : BInv st.b nm s0)
    (h : (if cl.length > 1 then asmCl ev bank n (some x.addr) none 0 rs0 s0 cl else .ok rs0 s0) = .ok rs s) :
    ∃ Ns names, BInv st.b names s ∧ nm <+: names ∧ Built ev bank names ((others x.addr cl).map (Lit.subst θ)) Ns ∧
      Merged rs0 Ns rs := by
  split at h
  · obtain ⟨Ls, Ns, names, h1, h2, h3, h4, h5, _⟩ := asmCl_spec hd (by simp) cl 0 rs0 s0 nm rs s hi hw h
    rw [picked_cut h1] at h4
    exact ⟨Ns, names, h2, h3, h4, h5⟩
  · rename_i hl
    simp only [Asm.ok.injEq] at h
    obtain ⟨rfl, rfl⟩ := h
    rw [len_one hl hx, others_single]
    exact ⟨[], nm, hi, List.prefix_rfl, .nil, .refl _⟩

theorem resolveLits_spec {ev : Term → Option Term} {bank n : Nat} {st : St} {θ : Nat → Term} (hd : Den st.b θ)
    {xcl ycl : List ALit} {x y : ALit} (hx : x ∈ xcl) (hy : y ∈ ycl)
    (hwx : ∀ l ∈ xcl, ∀ w ∈ vars l.atom, w < 4000) (hwy : ∀ l ∈ ycl, ∀ w ∈ vars l.atom, w < 4000)
    {rs s} (h : resolveLits ev bank n st xcl x.addr ycl y.addr = .ok rs s) :
    Collected ev bank ((others x.addr xcl ++ others y.addr ycl).map (Lit.subst θ)) rs := by
  simp only [resolveLits] at h
  split at h
  · rename_i h2
    have l1 := List.length_pos_of_mem hx
    have l2 := List.length_pos_of_mem hy
    simp only [Asm.ok.injEq] at h
    obtain ⟨rfl, rfl⟩ := h
    rw [len_one (by omega) hx, len_one (by omega) hy, others_single, others_single]
    exact ⟨[], [], List.nodup_nil, by simp, .nil, .refl _⟩
  · split at h
    · rename_i rs1 s1 e1
      obtain ⟨Nx, nx, hi1, _, hb1, hm1⟩ := optional_spec hd hx hwx BInv.init e1
      obtain ⟨Ny, ny, hi2, hp2, hb2, hm2⟩ := optional_spec hd hy hwy hi1 h
      rw [List.map_append]
      exact ⟨ny, Nx ++ Ny, hi2.nodup, hi2.le, (hb1.mono hp2).append hb2, hm1.append hm2⟩
    · rename_i hne
      exact absurd h (hne rs s)

theorem resolveLits_taut {ev : Term → Option Term} {bank n : Nat} {st : St} {θ : Nat → Term} (hd : Den st.b θ)
    {xcl ycl : List ALit} {x y : ALit} (hx : x ∈ xcl)
    (hwx : ∀ l ∈ xcl, ∀ w ∈ vars l.atom, w < 4000) (hwy : ∀ l ∈ ycl, ∀ w ∈ vars l.atom, w < 4000)
    (h : resolveLits ev bank n st xcl x.addr ycl y.addr = .taut) :
    CollectedTaut ev bank ((others x.addr xcl ++ others y.addr ycl).map (Lit.subst θ)) := by
  simp only [resolveLits] at h
  split at h
  · cases h
  · split at h
    · rename_i rs1 s1 e1
      obtain ⟨Nx, nx, hi1, _, hb1, hm1⟩ := optional_spec hd hx hwx BInv.init e1
      split at h
      · obtain ⟨pre, post, Ls, Ns, n2, e, hP, hp, hnd, hB, l, hl, hT⟩ :=
          asmCl_taut hd (by simp) ycl 0 rs1 s1 nx hi1 hwy h
        refine ⟨_, n2, Nx ++ Ns, hnd, ?_, (hb1.mono hp).append hB, l, List.mem_append_right _ hl, ?_⟩
        · intro k hk
          rw [List.map_append]
          rcases List.mem_append.1 hk with hk | hk
          · exact List.mem_append_left _ hk
          · rw [e]; exact List.mem_append_right _ (picked_pre hP k hk)
        · rcases hT with h | ⟨k, h | h, hc⟩
          · exact .inl h
          · rcases hm1.only k h with h | h
            · cases h
            · exact .inr ⟨k, List.mem_append_left _ h, hc⟩
          · exact .inr ⟨k, List.mem_append_right _ h, hc⟩
      · cases h
    · split at h
      · obtain ⟨pre, post, Ls, Ns, n2, e, hP, hp, hnd, hB, l, hl, hT⟩ :=
          asmCl_taut hd (by simp) xcl 0 [] ⟨st, 0⟩ [] BInv.init hwx h
        refine ⟨Ls, n2, Ns, hnd, ?_, hB, l, hl, ?_⟩
        · intro k hk
          rw [List.map_append, e]; exact List.mem_append_left _ (picked_pre hP k hk)
        · rcases hT with h | ⟨k, h | h, hc⟩
          · exact .inl h
          · cases h
          · exact .inr ⟨k, h, hc⟩
      · cases h

theorem factorLits_spec {ev : Term → Option Term} {bank n : Nat} {st : St} {θ : Nat → Term} (hd : Den st.b θ)
    {xcl : List ALit} {x : ALit} (hx : x ∈ xcl) (hwx : ∀ l ∈ xcl, ∀ w ∈ vars l.atom, w < 4000)
    {rs s} (h : factorLits ev bank n st xcl x.addr = .ok rs s) :
    Collected ev bank ((others x.addr xcl).map (Lit.subst θ)) rs := by
  simp only [factorLits] at h
  split at h
  · rename_i h1
    simp only [Asm.ok.injEq] at h
    obtain ⟨rfl, rfl⟩ := h
    rw [len_one (by omega) hx, others_single]
    exact ⟨[], [], List.nodup_nil, by simp, .nil, .refl _⟩
  · obtain ⟨Ls, Ns, names, h1, h2, h3, h4, h5, _⟩ := asmCl_spec hd (by simp) xcl 0 [] ⟨st, 0⟩ [] rs s BInv.init hwx h
    rw [picked_cut h1] at h4
    exact ⟨names, Ns, h2.nodup, h2.le, h4, h5⟩

theorem factorLits_taut {ev : Term → Option Term} {bank n : Nat} {st : St} {θ : Nat → Term} (hd : Den st.b θ)
    {xcl : List ALit} {x : ALit} (hwx : ∀ l ∈ xcl, ∀ w ∈ vars l.atom, w < 4000)
    (h : factorLits ev bank n st xcl x.addr = .taut) :
    CollectedTaut ev bank ((others x.addr xcl).map (Lit.subst θ)) := by
  simp only [factorLits] at h
  split at h
  · cases h
  · obtain ⟨pre, post, Ls, Ns, n2, e, hP, hp, hnd, hB, l, hl, hT⟩ :=
      asmCl_taut hd (by simp) xcl 0 [] ⟨st, 0⟩ [] BInv.init hwx h
    refine ⟨Ls, n2, Ns, hnd, ?_, hB, l, hl, ?_⟩
    · intro k hk
      rw [e]; exact picked_pre hP k hk
    · rcases hT with h | ⟨k, h | h, hc⟩
      · exact .inl h
      · cases h
      · exact .inr ⟨k, h, hc⟩

/-! ### Meaning of collected literals -/

mutual
theorem eval_congr {I : Interp} {ρ ρ' : Nat → I.D} : ∀ t : Term, (∀ v ∈ vars t, ρ v = ρ' v) → eval I ρ t = eval I ρ' t
  | .var v, h => h v (by simp)
  | .const c, _ => rfl
  | .app f as, h => by simp only [eval, evalL_congr as (by simpa using h)]
theorem evalL_congr {I : Interp} {ρ ρ' : Nat → I.D} : ∀ as : List Term, (∀ v ∈ varsL as, ρ v = ρ' v) →
    evalL I ρ as = evalL I ρ' as
  | [], _ => rfl
  | a :: as, h => by
    simp only [evalL, eval_congr a (fun v hv => h v (by simp [hv])), evalL_congr as (fun v hv => h v (by simp [hv]))]
end

theorem Lit.tr_congr {I : Interp} {ρ ρ' : Nat → I.D} {l : Lit} (h : ∀ v ∈ vars l.atom, ρ v = ρ' v) :
    l.tr I ρ ↔ l.tr I ρ' := by simp only [Lit.tr, eval_congr l.atom h]

theorem Built.vars {ev bank names Ls Ns} (h : Built ev bank names Ls Ns) : ∀ l ∈ Ls, ∀ v ∈ vars l.atom, v ∈ names := by
  induction h with
  | nil => simp
  | cons h _ ih =>
    intro l hl
    rcases List.mem_cons.1 hl with rfl | hl
    · exact h.2.2
    · exact ih l hl

/-- an assignment of the renamed variables with given values for the original ones -/
theorem lift_assign {D : Type} (bank : Nat) {names : List Nat} (hn : names.Nodup) (ρ : Nat → D) :
    ∃ ρ' : Nat → D, ∀ v ∈ names, ρ' (bank * 1000 + names.idxOf v) = ρ v := by
  refine ⟨fun m => ρ (names.getD (m - bank * 1000) 0), ?_⟩
  intro v hv
  have h1 : names.idxOf v < names.length := List.idxOf_lt_length_iff.2 hv
  have h2 : names[names.idxOf v]'h1 = v := List.getElem_idxOf _
  simp only [Nat.add_sub_cancel_left]
  congr 1
  rw [List.getD_eq_getElem?_getD, List.getElem?_eq_getElem h1, Option.getD_some, h2]

theorem Collected.point {I : Interp} {ev : Term → Option Term} (hev : EvSound I ev) (ht : TruthOk I) {bank : Nat}
    {Ls rs : List Lit} (h : Collected ev bank Ls rs) : ∀ ρ : Nat → I.D, ∃ ρ' : Nat → I.D,
      (∃ l ∈ rs, l.tr I ρ) ↔ ∃ l ∈ Ls, l.tr I ρ' := by
  obtain ⟨names, Ns, _, _, hB, hM⟩ := h.shape
  intro ρ
  refine ⟨fun v => ρ (bank * 1000 + names.idxOf v), ?_⟩
  rw [hM.tr ht ρ, hB.tr hev]
  simp

/-- the collected literals mean the same as the instances -/
theorem Collected.equiv {I : Interp} {ev : Term → Option Term} (hev : EvSound I ev) (ht : TruthOk I) {bank : Nat}
    {Ls rs : List Lit} (h : Collected ev bank Ls rs) : ClTrue I rs ↔ ClTrue I Ls := by
  obtain ⟨names, Ns, hn, _, hB, hM⟩ := h.shape
  constructor
  · intro hr ρ
    obtain ⟨ρ', hρ⟩ := lift_assign (D := I.D) bank hn ρ
    have := hr ρ'
    rw [hM.tr ht ρ', hB.tr hev] at this
    rcases this with ⟨l, hl, _⟩ | ⟨l, hl, h⟩
    · cases hl
    · exact ⟨l, hl, (Lit.tr_congr (fun v hv => hρ v (hB.vars l hl v hv))).1 h⟩
  · intro hL ρ
    rw [hM.tr ht ρ, hB.tr hev]
    exact .inr (hL _)

theorem CollectedTaut.valid {I : Interp} {ev : Term → Option Term} (hev : EvSound I ev) (ht : TruthOk I) {bank : Nat}
    {Ls : List Lit} (h : CollectedTaut ev bank Ls) : ClTrue I Ls := by
  obtain ⟨Ls', names, Ns, hn, hs, hB, l, hl, hT⟩ := h.shape
  intro ρ
  obtain ⟨ρ', hρ⟩ := lift_assign (D := I.D) bank hn ρ
  have : ∃ l ∈ Ns, l.tr I ρ' := by
    rcases hT with h | ⟨k, hk, h⟩
    · exact ⟨l, hl, h.tr ht ρ'⟩
    · rcases h.tr (I := I) ρ' with h | h
      · exact ⟨l, hl, h⟩
      · exact ⟨k, hk, h⟩
  rw [hB.tr hev] at this
  obtain ⟨k, hk, h⟩ := this
  exact ⟨k, hs k hk, (Lit.tr_congr (fun v hv => hρ v (hB.vars k hk v hv))).1 h⟩

/-! ### Bindings left by unification -/

theorem unify_den {n : Nat} {x y : Term} {st : St} (h : unify n St.empty x y = some (true, st))
    (hx : ∀ w ∈ vars x, w < 4000) (hy : ∀ w ∈ vars y, w < 4000) :
    ∃ θ, Den st.b θ ∧ subst θ x = subst θ y ∧ ∀ τ, subst τ x = subst τ y → ∀ v, τ v = subst τ (θ v) := by
  obtain ⟨_, p2, p3, _⟩ := unify_spec _ _ _ _ _ _ h
  have hc : Acyclic st.b := p2 ⟨fun _ => 0, by rintro v w ⟨t, ht, _⟩; simp [St.empty] at ht⟩
  have hr : Rng 4000 st := Rng.unify (by intro v t hv; simp [St.empty] at hv) hx hy h
  obtain ⟨θ, hd, hm⟩ := den_of_acyclic hr hc
  refine ⟨θ, hd, ((p3 rfl θ).1 hd.bound).2, fun τ hτ => hm τ ((p3 rfl τ).2 ⟨?_, hτ⟩)⟩
  intro v t hv; simp [St.empty] at hv

/-- clause given to an inference: ordinary variables, an address stands for one literal -/
structure WfCl (cl : List ALit) : Prop where
  vars : ∀ l ∈ cl, ∀ w ∈ vars l.atom, w < 4000
  addr : ∀ l ∈ cl, ∀ k ∈ cl, l.addr = k.addr → l.lit = k.lit

/-- literals of a clause -/
def litsOf (cl : List ALit) : List Lit := cl.map ALit.lit

/-- if a clause is true and the other literals are false, the cut literal is true -/
theorem cut_true {I : Interp} {cl : List ALit} (hw : WfCl cl) {x : ALit} (hx : x ∈ cl) {θ : Nat → Term}
    (ht : ClTrue I (litsOf cl)) {ρ : Nat → I.D} (hf : ¬ ∃ l ∈ (others x.addr cl).map (Lit.subst θ), l.tr I ρ) :
    (x.lit.subst θ).tr I ρ := by
  obtain ⟨l, hl, htr⟩ := (ht.subst θ) ρ
  obtain ⟨l1, hl1, rfl⟩ := List.mem_map.1 hl
  obtain ⟨l2, hl2, rfl⟩ := List.mem_map.1 hl1
  by_cases ha : l2.addr = x.addr
  · rw [← hw.addr l2 hl2 x hx ha]; exact htr
  · exfalso; apply hf
    refine ⟨l2.lit.subst θ, List.mem_map_of_mem (List.mem_map_of_mem ?_), htr⟩
    simp [hl2, ha]

end Gkc
