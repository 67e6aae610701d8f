import Verif.LoopInv
/- Runs of the given clause loop that go on, for C62: what is picked is covered by active clauses of the whole run. -/
namespace Gkc.Loop
open Gkc Term Complete
open Gkc.Props (Units.has)

variable {S : Const → Prop}

/-- The state after `t` rounds; each round has its own options, so that the way of picking, the limits and the memory can change.
After a proof nothing more is done. -/
def rounds (o : Nat → Opt) (input : List (List Lit)) : Nat → Res
  | 0 => .next (start (o 0) input)
  | t + 1 => match rounds o input t with
    | .next s => if s.st.refuted then .next s else iter (o t) s
    | r => r

/-- the clause picked in a round -/
def picked (o : Opt) (s : LState) : Option (List ALit) := s.st.passive[o.pick s.st.passive % s.st.passive.length]?

theorem derive1_active {o : Opt} {s s' : LState} {i : Inf} (h : derive1 o s i = some s') : s'.st.active = s.st.active := by
  unfold derive1 at h
  split at h
  · cases h; rfl
  · split at h
    · cases h
    · cases h; rfl
    · simp only [Option.some.injEq] at h
      subst h
      split <;> rfl
    · split at h
      · cases h
      · cases h
      · cases h; rfl
      · cases h; rfl
      · split at h
        · cases h; simp [enter]
        · cases h; rfl

theorem derives_active {o : Opt} : ∀ {is : List Inf} {s s' : LState}, derives o s is = some s' → s'.st.active = s.st.active := by
  intro is
  induction is with
  | nil => intro s s' h; cases h; rfl
  | cons i is ih =>
    intro s s' h
    simp only [derives, Option.bind_eq_some_iff] at h
    obtain ⟨s1, h1, h2⟩ := h
    rw [ih h2, derive1_active h1]

theorem derive1_passive {o : Opt} {s s' : LState} {i : Inf} (h : derive1 o s i = some s') : s.st.passive <+: s'.st.passive := by
  unfold derive1 at h
  split at h
  · cases h; exact List.prefix_refl _
  · split at h
    · cases h
    · cases h; exact List.prefix_refl _
    · simp only [Option.some.injEq] at h
      subst h
      split <;> exact List.prefix_refl _
    · split at h
      · cases h
      · cases h
      · cases h; exact List.prefix_refl _
      · cases h; exact List.prefix_refl _
      · split at h
        · cases h; exact List.prefix_append _ _
        · cases h; exact List.prefix_refl _

theorem derives_passive {o : Opt} : ∀ {is : List Inf} {s s' : LState}, derives o s is = some s' → s.st.passive <+: s'.st.passive := by
  intro is
  induction is with
  | nil => intro s s' h; cases h; exact List.prefix_refl _
  | cons i is ih =>
    intro s s' h
    simp only [derives, Option.bind_eq_some_iff] at h
    obtain ⟨s1, h1, h2⟩ := h
    exact (derive1_passive h1).trans (ih h2)

/-- active clauses stay, the queue grows at its end, and the clause is covered by an active one unless it is lost -/
theorem useGiven_act {o : Opt} (ho : Opt.Ok S o) {s s' : LState} {c : List ALit} {chg : Bool} (h : useGiven o s c chg = .next s') :
    s.st.active <+: s'.st.active ∧ s.st.passive <+: s'.st.passive ∧ (s'.Good → (∀ a ∈ s.st.active, ∀ l ∈ lits a, Okl S l) → (∀ l ∈ lits c, Okl S l) →
      Covers (fun E => ∃ a ∈ s'.st.active, lits a = E) (lits c)) := by
  unfold useGiven at h
  split at h
  · rename_i ht
    cases h
    exact ⟨List.prefix_refl _, List.prefix_refl _, fun _ _ _ => taut_covers ht⟩
  · split at h
    · cases h
    · rename_i hs
      cases h
      exact ⟨List.prefix_refl _, List.prefix_refl _, fun _ ha hok => givenSubsumed_yes ho.hash hok ha hs fun a ha' => ⟨a, ha', rfl⟩⟩
    · split at h
      · cases h
      · cases h; exact ⟨List.prefix_refl _, List.prefix_refl _, fun hg => absurd hg.1 (by simp)⟩
      · cases h; exact ⟨List.prefix_refl _, List.prefix_refl _, fun hg => absurd hg.1 (by simp)⟩
      · rename_i g _ hcg
        split at h
        · cases h
        · cases h; exact ⟨List.prefix_refl _, List.prefix_refl _, fun hg => absurd hg.1 (by simp)⟩
        · cases h; exact ⟨List.prefix_refl _, List.prefix_refl _, fun hg => absurd hg.1 (by simp)⟩
        · rename_i a _ hca
          simp only at h
          split at h
          · cases h
          · rename_i s2 hd
            cases h
            simp only [Option.bind_eq_some_iff] at hd
            obtain ⟨s1, hd1, is, hra, hd2⟩ := hd
            have ea : s'.st.active = s.st.active ++ [fresh a] := by
              rw [derives_active hd2, derives_active hd1]
              simp only
              split <;> simp
            have ep : s.st.passive <+: s'.st.passive := by
              have := (derives_passive hd1).trans (derives_passive hd2)
              refine List.IsPrefix.trans ?_ this
              simp only
              split <;> simp
            refine ⟨by rw [ea]; exact List.prefix_append _ _, ep, fun _ _ hok => ?_⟩
            have C1 : Copy 1 (lits c) g := copy_spec hcg fun l hl => (hok l hl).1.2
            have gok := C1.okl (by omega) hok
            have C2 : Copy 2 g a := copy_spec hca fun l hl => (gok l hl).1.2
            refine (C1.covers (P := fun E => E = g) rfl).trans fun E e => ?_
            subst e
            exact C2.covers ⟨fresh a, by rw [ea]; simp, lits_fresh a⟩

/-- a round: active clauses stay, the queue without the picked clause grows at its end, and the picked clause is covered by active clauses and
shorter clauses -/
theorem iter_act {o : Opt} (ho : Opt.Ok S o) {s s' : LState} (h : iter o s = .next s') : ∃ p, picked o s = some p ∧ s.st.active <+: s'.st.active ∧
    s.st.passive.eraseIdx (o.pick s.st.passive % s.st.passive.length) <+: s'.st.passive ∧
    ∀ input, s'.Good → Inv0 S input s.st →
      Covers (fun E => (Has s.st E ∧ E.length < p.length) ∨ ∃ a ∈ s'.st.active, lits a = E) (lits p) := by
  unfold iter at h
  split at h
  · cases h
  · rename_i p hp
    refine ⟨p, hp, ?_⟩
    simp only at h
    generalize hk : o.pick s.st.passive % s.st.passive.length = k at *
    have hpm : p ∈ s.st.passive := List.mem_of_getElem? hp
    have hso : ∀ x, x ∈ lits (o.sort p) ↔ x ∈ lits p := fun x => ((ho.sort p).map ALit.lit).mem_iff
    have hsl : (lits (o.sort p)).length = (lits p).length := ((ho.sort p).map ALit.lit).length_eq
    have hpl : (lits p).length = p.length := by simp [lits]
    split at h
    · rename_i ht
      cases h
      exact ⟨List.prefix_refl _, List.prefix_refl _, fun _ _ _ => taut_covers ht⟩
    · split at h
      · cases h
      · cases h
      · rename_i hs
        cases h
        refine ⟨List.prefix_refl _, List.prefix_refl _, fun input _ hi => ?_⟩
        have hrec : ∀ x ∈ o.sort p, isRec x.atom = true := fun x hx =>
          ((hi.pas p hpm).2 x.lit ((hso _).1 (List.mem_map_of_mem hx))).1.rec
        obtain ⟨x, hx, hl, hu⟩ := simplify_drop hs hrec
        have hx' : x.lit ∈ lits p := (hso _).1 (List.mem_map_of_mem hx)
        have hl' : 2 ≤ (lits p).length := by rw [← hsl]; simpa [lits] using hl
        intro σ
        rcases hi.unit _ _ hu σ with ht | ⟨E, hE, hlen, τ, hτ⟩
        · exact .inl (ht.mono fun l hl => by
            simp only [List.map_cons, List.map_nil, List.mem_singleton] at hl
            rw [hl]; exact List.mem_map_of_mem hx')
        · simp only [List.length_singleton] at hlen
          refine .inr ⟨E, .inl ⟨hE, by omega⟩, by omega, τ, fun l hl => ?_⟩
          have := hτ l hl
          simp only [List.map_cons, List.map_nil, List.mem_singleton] at this
          rw [this]; exact List.mem_map_of_mem hx'
      · cases h
        exact ⟨List.prefix_refl _, List.prefix_refl _, fun _ hg => absurd hg.2 (by simp)⟩
      · obtain ⟨h1, h2, h3⟩ := useGiven_act ho h
        refine ⟨h1, h2, fun input hg hi => ?_⟩
        have := h3 hg hi.actOk fun l hl => (hi.pas p hpm).2 l ((hso l).1 hl)
        refine (Covers.sub (P := fun E => E = lits (o.sort p)) rfl (by rw [hsl]) fun l hl => (hso l).1 hl).trans fun E e => ?_
        subst e
        exact this.mono fun E e => .inr e
      · rename_i l ls hs
        obtain ⟨h1, h2, h3⟩ := useGiven_act ho h
        refine ⟨h1, h2, fun input hg hi => ?_⟩
        have hrec : ∀ x ∈ o.sort p, isRec x.atom = true := fun x hx =>
          ((hi.pas p hpm).2 x.lit ((hso _).1 (List.mem_map_of_mem hx))).1.rec
        have hsb := simplify_ok hs hrec
        have := h3 hg hi.actOk fun k hk => by
          rw [lits_fresh] at hk
          exact (hi.pas p hpm).2 k ((hso k).1 (hsb.subset hk))
        rw [lits_fresh] at this
        refine (Covers.sub (P := fun E => E = l :: ls) rfl (by rw [← hsl]; exact hsb.length_le) fun k hk => (hso k).1 (hsb.subset hk)).trans fun E e => ?_
        subst e
        exact this.mono fun E e => .inr e

/-! ### A run that goes on for ever -/

/-- an endless run without loss and without a proof -/
structure Endless (o : Nat → Opt) (input : List (List Lit)) (s : Nat → LState) : Prop where
  zero : s 0 = start (o 0) input
  step : ∀ t, iter (o t) (s t) = .next (s (t + 1))
  good : ∀ t, (s t).Good

/-- every clause of the queue is picked sometime -/
def Fair (o : Nat → Opt) (s : Nat → LState) : Prop :=
  ∀ t, ∀ c ∈ (s t).st.passive, ∃ t', t ≤ t' ∧ picked (o t') (s t') = some c

theorem Endless.inv {o : Nat → Opt} {input : List (List Lit)} {s : Nat → LState} (h : Endless o input s) (ho : ∀ t, Opt.Ok S (o t))
    (hsel : ∀ t, (o t).sel = (o 0).sel)
    (hin : ∀ C ∈ input, C ≠ [] ∧ ∀ l ∈ C, Okl S l) : ∀ t, Inv S (o 0).sel input (s t).st := by
  intro t
  induction t with
  | zero => rw [h.zero]; exact (start_inv hin).1
  | succ t ih =>
    have := (iter_spec (ho t) (h.step t) (h.good (t + 1))).2 input
    rw [hsel t] at this
    exact this ih

theorem Endless.active {o : Nat → Opt} {input : List (List Lit)} {s : Nat → LState} (h : Endless o input s) (ho : ∀ t, Opt.Ok S (o t)) {t t' : Nat}
    (ht : t ≤ t') : (s t).st.active <+: (s t').st.active := by
  induction t' with
  | zero =>
    have : t = 0 := by omega
    subst this
    exact List.prefix_refl _
  | succ t' ih =>
    by_cases e : t = t' + 1
    · subst e; exact List.prefix_refl _
    · obtain ⟨_, _, h1, _⟩ := iter_act (ho t') (h.step t')
      exact (ih (by omega)).trans h1

/-- the clauses that become active -/
def Lim (s : Nat → LState) (D : List Lit) : Prop := ∃ t, fresh D ∈ (s t).st.active

theorem Endless.covers {o : Nat → Opt} {input : List (List Lit)} {s : Nat → LState} (h : Endless o input s) (ho : ∀ t, Opt.Ok S (o t))
    (hsel : ∀ t, (o t).sel = (o 0).sel) (hin : ∀ C ∈ input, C ≠ [] ∧ ∀ l ∈ C, Okl S l) (hf : Fair o s) : ∀ (n : Nat) (D : List Lit), D.length = n → ∀ t, Has (s t).st D → Covers (Lim s) D := by
  have act : ∀ t, ∀ a ∈ (s t).st.active, Lim s (lits a) := by
    intro t a ha
    obtain ⟨r, rfl, _⟩ := (h.inv ho hsel hin t).act a ha
    rw [lits_fresh]
    exact ⟨t, ha⟩
  intro n
  induction n using Nat.strong_induction_on with
  | _ n ih =>
    intro D hn t hD
    obtain ⟨c, hc, rfl⟩ := hD
    rcases List.mem_append.1 hc with hc | hc
    · obtain ⟨t', _, hp⟩ := hf t c hc
      obtain ⟨p, hp', _, _, hcov⟩ := iter_act (ho t') (h.step t')
      rw [hp] at hp'
      cases hp'
      refine (hcov input (h.good _) (h.inv ho hsel hin t').toInv0).trans fun E hE => ?_
      rcases hE with ⟨hE, hl⟩ | ⟨a, ha, rfl⟩
      · exact ih E.length (by rw [← hn]; simpa [lits] using hl) E rfl t' hE
      · exact .self (act _ a ha)
    · exact .self (act t c hc)

/-- a fair endless run without loss and without a proof: the input is true in a structure of terms -/
theorem Endless.terms {o : Nat → Opt} {input : List (List Lit)} {s : Nat → LState} (h : Endless o input s) (ho : ∀ t, Opt.Ok S (o t))
    (hsel : ∀ t, (o t).sel = (o 0).sel) (hin : ∀ C ∈ input, C ≠ [] ∧ ∀ l ∈ C, Okl S l) (hf : Fair o s) :
    ∃ I : Term → Prop, ∀ C ∈ input, ∀ σ : Nat → Term, ∃ l ∈ C.map (Lit.subst σ), tv I l := by
  have hc : ∀ t D, Has (s t).st D → Covers (Lim s) D := fun t D => h.covers ho hsel hin hf D.length D rfl t
  have hs : Saturated (o 0).sel (Lim s) := by
    refine ⟨?_, ?_⟩
    · rintro x y ⟨t, hx⟩ ⟨t', hy⟩ σ τ i j hi hj q1 q2 h1 h2 h3
      have hx := (h.active ho (Nat.le_max_left t t')).subset hx
      have hy := (h.active ho (Nat.le_max_right t t')).subset hy
      obtain ⟨n, hn⟩ := (h.inv ho hsel hin (max t t')).res x y hx hy σ τ i j hi hj q1 q2 h1 h2 h3
      exact ⟨n, hn.trans (hc _)⟩
    · rintro x ⟨t, hx⟩ σ i j hij hj e
      exact ((h.inv ho hsel hin t).fac x hx σ i j hij hj e).trans (hc _)
  have hne : ¬ Lim s [] := by
    rintro ⟨t, ht⟩
    obtain ⟨r, e, hr, _⟩ := (h.inv ho hsel hin t).act _ ht
    have := congrArg List.length e
    simp only [fresh_length, List.length_nil] at this
    exact hr (List.length_eq_zero_iff.1 this.symm)
  have hk : ∀ D, Lim s D → Kept S D := by
    rintro D ⟨t, ht⟩
    obtain ⟨r, e, _, hr⟩ := (h.inv ho hsel hin t).act _ ht
    have e := congrArg lits e
    rw [lits_fresh, lits_fresh] at e
    exact e ▸ hr
  obtain ⟨I, hI⟩ := saturated_model (ho 0).choice hk hs hne
  refine ⟨I, fun C hC σ => ?_⟩
  rcases ((h.inv ho hsel hin 0).inp C hC).trans (hc 0) σ with ht | ⟨D, hD, _, τ, hτ⟩
  · exact tv_taut ht
  · obtain ⟨l, hl, ht⟩ := hI D hD τ
    obtain ⟨k, hk, rfl⟩ := List.mem_map.1 hl
    exact ⟨_, hτ k hk, ht⟩

/-! ### Picking the oldest clause -/

/-- The oldest clause is picked again and again: then every clause is picked. -/
theorem Endless.fair {o : Nat → Opt} {input : List (List Lit)} {s : Nat → LState} (h : Endless o input s) (ho : ∀ t, Opt.Ok S (o t))
    (hp : ∀ t, ∃ t', t ≤ t' ∧ ∀ q, (o t').pick q = 0) : Fair o s := by
  have key : ∀ (n t : Nat) (c : List ALit), (s t).st.passive[n]? = some c → ∃ t', t ≤ t' ∧ picked (o t') (s t') = some c := by
    intro n
    induction n with
    | zero =>
      -- the clause is the oldest one until it is picked
      intro t c hc
      obtain ⟨t1, h1, h0⟩ := hp t
      have go : ∀ d t, t + d = t1 → (s t).st.passive[0]? = some c → ∃ t', t ≤ t' ∧ picked (o t') (s t') = some c := by
        intro d
        induction d with
        | zero =>
          intro t e hc
          refine ⟨t, Nat.le_refl _, ?_⟩
          have : t = t1 := by omega
          subst this
          simp only [picked, h0, Nat.zero_mod]
          exact hc
        | succ d ih =>
          intro t e hc
          obtain ⟨p, hpk, _, hpre, _⟩ := iter_act (ho t) (h.step t)
          by_cases hk : (o t).pick (s t).st.passive % (s t).st.passive.length = 0
          · exact ⟨t, Nat.le_refl _, by simp only [picked, hk]; exact hc⟩
          · have : (s (t + 1)).st.passive[0]? = some c := by
              obtain ⟨r, hr⟩ := hpre
              rw [← hr]
              have : ((s t).st.passive.eraseIdx ((o t).pick (s t).st.passive % (s t).st.passive.length))[0]? = some c := by
                rw [List.getElem?_eraseIdx_of_lt (by omega)]; exact hc
              exact List.getElem?_append_left (by
                rw [List.getElem?_eq_some_iff] at this; exact this.1) ▸ this
            obtain ⟨t', ht', e'⟩ := ih (t + 1) (by omega) this
            exact ⟨t', by omega, e'⟩
      exact go (t1 - t) t (by omega) hc
    | succ n ihn =>
      intro t c hc
      obtain ⟨t1, h1, h0⟩ := hp t
      have go : ∀ d t, t + d = t1 → (s t).st.passive[n + 1]? = some c → ∃ t', t ≤ t' ∧ picked (o t') (s t') = some c := by
        intro d
        induction d with
        | zero =>
          intro t e hc
          have : t = t1 := by omega
          subst this
          obtain ⟨p, hpk, _, hpre, _⟩ := iter_act (ho t) (h.step t)
          have : (s (t + 1)).st.passive[n]? = some c := by
            obtain ⟨r, hr⟩ := hpre
            rw [← hr]
            have : ((s t).st.passive.eraseIdx ((o t).pick (s t).st.passive % (s t).st.passive.length))[n]? = some c := by
              rw [h0, Nat.zero_mod, List.getElem?_eraseIdx_of_ge (by omega)]; exact hc
            exact List.getElem?_append_left (by
              rw [List.getElem?_eq_some_iff] at this; exact this.1) ▸ this
          obtain ⟨t', ht', e'⟩ := ihn (t + 1) c this
          exact ⟨t', by omega, e'⟩
        | succ d ih =>
          intro t e hc
          obtain ⟨p, hpk, _, hpre, _⟩ := iter_act (ho t) (h.step t)
          have hpos : n + 1 < (s t).st.passive.length := by rw [List.getElem?_eq_some_iff] at hc; exact hc.1
          rcases Nat.lt_trichotomy ((o t).pick (s t).st.passive % (s t).st.passive.length) (n + 1) with hk | hk | hk
          · have : (s (t + 1)).st.passive[n]? = some c := by
              obtain ⟨r, hr⟩ := hpre
              rw [← hr]
              have : ((s t).st.passive.eraseIdx ((o t).pick (s t).st.passive % (s t).st.passive.length))[n]? = some c := by
                rw [List.getElem?_eraseIdx_of_ge (by omega)]; exact hc
              exact List.getElem?_append_left (by
                rw [List.getElem?_eq_some_iff] at this; exact this.1) ▸ this
            obtain ⟨t', ht', e'⟩ := ihn (t + 1) c this
            exact ⟨t', by omega, e'⟩
          · exact ⟨t, Nat.le_refl _, by simp only [picked, hk]; exact hc⟩
          · have : (s (t + 1)).st.passive[n + 1]? = some c := by
              obtain ⟨r, hr⟩ := hpre
              rw [← hr]
              have : ((s t).st.passive.eraseIdx ((o t).pick (s t).st.passive % (s t).st.passive.length))[n + 1]? = some c := by
                rw [List.getElem?_eraseIdx_of_lt (by omega)]; exact hc
              exact List.getElem?_append_left (by
                rw [List.getElem?_eq_some_iff] at this; exact this.1) ▸ this
            obtain ⟨t', ht', e'⟩ := ih (t + 1) (by omega) this
            exact ⟨t', by omega, e'⟩
      exact go (t1 - t) t (by omega) hc
  intro t c hc
  obtain ⟨n, hn⟩ := List.mem_iff_getElem?.1 hc
  exact key n t c hn

end Gkc.Loop
