import Verif.Cuts
import Verif.Props.Derive
import Verif.Props.StrongDup
/- Property theorems C18: cutting literals with known clauses. -/
namespace Gkc.Props
open Gkc Term

/-- some literal is true for the given values of variables -/
def Holds (I : Interp) (ρ : Nat → I.D) (cl : List Lit) : Prop := ∃ l ∈ cl, l.tr I ρ

/-- the unit is among the known ones -/
def Units.has (us : Units) (neg : Bool) (t : Term) : Prop := t ∈ us.loc neg ∨ t ∈ us.kb neg

/-- the known unit clauses are true -/
def UnitsTrue (I : Interp) (us : Units) : Prop := ∀ s t, Units.has us s t → ClTrue I [⟨s, t⟩]

theorem known_iff {us : List Term} {t : Term} : known us t = true ↔ t ∈ us := by
  simp only [known, List.any_eq_true, eqTerm_iff]
  constructor
  · rintro ⟨u, h, rfl⟩; exact h
  · intro h; exact ⟨t, h, rfl⟩

theorem mem_removeCuts {fl : List (Lit × Bool)} {l : Lit} : l ∈ removeCuts fl ↔ (l, false) ∈ fl := by
  simp only [removeCuts, List.mem_map, List.mem_filter]
  constructor
  · rintro ⟨⟨k, b⟩, ⟨h, hb⟩, rfl⟩
    simp only [Bool.not_eq_true'] at hb
    subst hb; exact h
  · intro h; exact ⟨(l, false), ⟨h, rfl⟩, rfl⟩

/-! ### Simple cuts -/

theorem cutSubsume_spec (fwd : Bool) (us : Units) : ∀ (cl : List Lit),
    (cutSubsume fwd us cl = none ↔ fwd = true ∧ ∃ l ∈ cl, Units.has us l.neg l.atom) ∧
    ∀ fl, cutSubsume fwd us cl = some fl →
      fl = cl.map (fun l => (l, known (us.loc (!l.neg)) l.atom || known (us.kb (!l.neg)) l.atom)) := by
  intro cl
  induction cl with
  | nil => simp [cutSubsume]
  | cons l ls ih =>
    simp only [cutSubsume]
    by_cases h1 : (fwd && known (us.loc l.neg) l.atom) = true
    · rw [if_pos h1]
      simp only [Bool.and_eq_true, known_iff] at h1
      exact ⟨⟨fun _ => ⟨h1.1, l, List.mem_cons_self, .inl h1.2⟩, fun _ => rfl⟩, fun fl e => by cases e⟩
    · rw [if_neg h1]
      by_cases h2 : (fwd && known (us.kb l.neg) l.atom) = true
      · rw [if_pos h2]
        simp only [Bool.and_eq_true, known_iff] at h2
        exact ⟨⟨fun _ => ⟨h2.1, l, List.mem_cons_self, .inr h2.2⟩, fun _ => rfl⟩, fun fl e => by cases e⟩
      · rw [if_neg h2]
        simp only [Bool.and_eq_true, known_iff, not_and] at h1 h2
        cases hc : cutSubsume fwd us ls with
        | none =>
          obtain ⟨hf, k, hk, hu⟩ := ih.1.1 hc
          exact ⟨⟨fun _ => ⟨hf, k, List.mem_cons_of_mem _ hk, hu⟩, fun _ => rfl⟩, fun fl e => by cases e⟩
        | some rs =>
          refine ⟨⟨fun e => (by cases e), ?_⟩, ?_⟩
          · rintro ⟨hf, k, hk, hu⟩
            rcases List.mem_cons.1 hk with rfl | hk
            · rcases hu with hu | hu
              · exact absurd hu (h1 hf)
              · exact absurd hu (h2 hf)
            · have := ih.1.2 ⟨hf, k, hk, hu⟩
              rw [hc] at this; cases this
          · intro fl e
            simp only [Option.some.injEq] at e
            rw [← e, ih.2 rs hc]
            rfl

/-- C18: the simple cut removes exactly the literals whose complement is a known unit, and
reports a subsumed clause exactly when a literal of the clause is itself a known unit (and the
check is switched on). -/
theorem C18_unit_cut_exact (fwd : Bool) (us : Units) (cl : List Lit) :
    (cutSubsume fwd us cl = none ↔ fwd = true ∧ ∃ l ∈ cl, Units.has us l.neg l.atom) ∧
    ∀ fl, cutSubsume fwd us cl = some fl → ∀ l, l ∈ removeCuts fl ↔ l ∈ cl ∧ ¬ Units.has us (!l.neg) l.atom := by
  refine ⟨(cutSubsume_spec fwd us cl).1, ?_⟩
  intro fl h l
  rw [(cutSubsume_spec fwd us cl).2 fl h]
  rw [mem_removeCuts, List.mem_map]
  simp only [Units.has]
  constructor
  · rintro ⟨k, hk, e⟩
    simp only [Prod.mk.injEq] at e
    obtain ⟨rfl, hb⟩ := e
    refine ⟨hk, ?_⟩
    rintro (hu | hu)
    · rw [known_iff.2 hu] at hb; simp at hb
    · rw [known_iff.2 hu] at hb; simp at hb
  · rintro ⟨hl, hu⟩
    refine ⟨l, hl, ?_⟩
    simp only [Prod.mk.injEq, true_and, Bool.or_eq_false_iff]
    constructor
    · cases e : known (us.loc (!l.neg)) l.atom
      · rfl
      · exact absurd (.inl (known_iff.1 e)) hu
    · cases e : known (us.kb (!l.neg)) l.atom
      · rfl
      · exact absurd (.inr (known_iff.1 e)) hu

theorem tr_not {I : Interp} {ρ : Nat → I.D} {n : Bool} {t : Term} : (⟨!n, t⟩ : Lit).tr I ρ ↔ ¬ (⟨n, t⟩ : Lit).tr I ρ := by
  cases n <;> simp [Lit.tr]

theorem unit_true {I : Interp} {l : Lit} (h : ClTrue I [l]) (ρ : Nat → I.D) : l.tr I ρ := by
  obtain ⟨k, hk, ht⟩ := h ρ
  rw [List.mem_singleton] at hk
  exact hk ▸ ht

/-- C18: cutting keeps the truth value of the clause for all values of its variables. -/
theorem C18_unit_cut_sound (fwd : Bool) (us : Units) (cl : List Lit) (fl : List (Lit × Bool))
    (h : cutSubsume fwd us cl = some fl) (I : Interp) (hu : UnitsTrue I us) (ρ : Nat → I.D) :
    Holds I ρ (removeCuts fl) ↔ Holds I ρ cl := by
  have hx := (C18_unit_cut_exact fwd us cl).2 fl h
  constructor
  · rintro ⟨l, hl, ht⟩; exact ⟨l, ((hx l).1 hl).1, ht⟩
  · rintro ⟨l, hl, ht⟩
    refine ⟨l, (hx l).2 ⟨hl, ?_⟩, ht⟩
    intro hk
    exact tr_not.1 (unit_true (hu _ _ hk) ρ) ht

/-- C18: a clause is dropped only when a known unit clause implies it. -/
theorem C18_subsumed_implied (fwd : Bool) (us : Units) (cl : List Lit) (h : cutSubsume fwd us cl = none) :
    ∃ l ∈ cl, Units.has us l.neg l.atom ∧ ∀ I : Interp, ClTrue I [l] → ClTrue I cl := by
  obtain ⟨_, l, hl, hk⟩ := (C18_unit_cut_exact fwd us cl).1.1 h
  refine ⟨l, hl, hk, fun I ht => ht.mono ?_⟩
  intro k hk; rw [List.mem_singleton] at hk; exact hk ▸ hl

/-! ### Strong cuts -/

theorem acyclic_empty : Acyclic St.empty.b := ⟨fun _ => 0, by rintro v w ⟨t, ht, _⟩; simp [St.empty] at ht⟩

/-- bindings as an inference leaves them -/
def Clean (st : St) : Prop := St.Inv st ∧ Acyclic st.b

theorem clean_empty : Clean St.empty := ⟨St.Inv.empty, acyclic_empty⟩

/-- the literal can be cut by the unit `y`: by matching or by unification -/
def CutBy (um : Bool) (x y : Term) : Prop :=
  if um then ∃ θ, subst θ y = x else ∃ θ, subst θ y = subst θ x

theorem strongCutAtom_spec {n : Nat} {um : Bool} {x : Term} : ∀ {ys : List Term} {st s : St} {b : Bool},
    Clean st → strongCutAtom n um x st ys = some (b, s) →
    Clean s ∧ (st = St.empty → s = St.empty) ∧ (b = true → ∃ y ∈ ys, CutBy um x y) ∧ (b = false → st = St.empty → ∀ y ∈ ys, ¬ CutBy um x y) := by
  intro ys
  induction ys with
  | nil =>
    intro st s b hc h
    simp only [strongCutAtom, Option.some.injEq, Prod.mk.injEq] at h
    obtain ⟨rfl, rfl⟩ := h
    exact ⟨hc, id, by simp, by simp⟩
  | cons y ys ih =>
    intro st s b hc h
    simp only [strongCutAtom] at h
    cases um with
    | true =>
      simp only [if_true] at h
      cases hm : matchT st y x with
      | ub => rw [hm] at h; cases h
      | ok s' =>
        rw [hm] at h
        simp only [Option.some.injEq, Prod.mk.injEq] at h
        obtain ⟨rfl, rfl⟩ := h
        have he : s'.clear = St.empty := (hc.1.ext (matchT_ext st y x s' (by rw [hm]; rfl))).clear
        rw [he]
        refine ⟨clean_empty, fun _ => rfl, fun _ => ⟨y, List.mem_cons_self, ?_⟩, by simp⟩
        exact ⟨_, (C07_match_sound y x st s' hm).2.1⟩
      | fail s' =>
        rw [hm] at h
        have he : s'.clear = St.empty := (hc.1.ext (matchT_ext st y x s' (by rw [hm]; rfl))).clear
        simp only [he] at h
        obtain ⟨h1, h0, h2, h3⟩ := ih clean_empty h
        refine ⟨h1, fun _ => h0 rfl, fun hb => ?_, fun hb e => ?_⟩
        · obtain ⟨z, hz, hcut⟩ := h2 hb
          exact ⟨z, List.mem_cons_of_mem _ hz, hcut⟩
        · intro z hz
          rcases List.mem_cons.1 hz with rfl | hz
          · subst e; exact (C07_match_answer_right z x s').2 hm
          · exact h3 hb rfl z hz
    | false =>
      simp only [Bool.false_eq_true, if_false] at h
      cases hm : unify n st x y with
      | none => rw [hm] at h; cases h
      | some r =>
        obtain ⟨r, s'⟩ := r
        obtain ⟨p1, p2, p3, p4⟩ := unify_spec _ _ _ _ _ _ hm
        have he : s'.clear = St.empty := (hc.1.ext p1).clear
        rw [hm] at h
        cases r with
        | true =>
          simp only [Option.some.injEq, Prod.mk.injEq] at h
          obtain ⟨rfl, rfl⟩ := h
          rw [he]
          refine ⟨clean_empty, fun _ => rfl, fun _ => ⟨y, List.mem_cons_self, ?_⟩, by simp⟩
          obtain ⟨θ, hs, _⟩ := (p2 hc.2).solution
          exact ⟨θ, (((p3 rfl θ).1 hs).2).symm⟩
        | false =>
          simp only [he] at h
          obtain ⟨h1, h0, h2, h3⟩ := ih clean_empty h
          refine ⟨h1, fun _ => h0 rfl, fun hb => ?_, fun hb e => ?_⟩
          · obtain ⟨z, hz, hcut⟩ := h2 hb
            exact ⟨z, List.mem_cons_of_mem _ hz, hcut⟩
          · intro z hz
            rcases List.mem_cons.1 hz with rfl | hz
            · subst e
              rintro ⟨θ, hθ⟩
              exact p4 rfl θ (by intro v t hv; simp [St.empty] at hv) hθ.symm
            · exact h3 hb rfl z hz

theorem strongCutLoop_spec {n : Nat} {um : Bool} {cands : Bool → Term → List Term} :
    ∀ {fl fl' : List (Lit × Bool)} {st s : St}, Clean st → strongCutLoop n um cands st fl = some (fl', s) →
    (∀ l, l ∈ removeCuts fl' → l ∈ removeCuts fl) ∧
    (∀ l, l ∈ removeCuts fl → l ∈ removeCuts fl' ∨ ∃ y ∈ cands (!l.neg) l.atom, CutBy um l.atom y) ∧
    (st = St.empty → ∀ l ∈ removeCuts fl', ∀ y ∈ cands (!l.neg) l.atom, ¬ CutBy um l.atom y) := by
  intro fl
  induction fl with
  | nil =>
    intro fl' st s hc h
    simp only [strongCutLoop, Option.some.injEq, Prod.mk.injEq] at h
    obtain ⟨rfl, rfl⟩ := h
    simp [removeCuts]
  | cons p fl ih =>
    intro fl' st s hc h
    obtain ⟨l, c⟩ := p
    simp only [strongCutLoop] at h
    cases c with
    | true =>
      simp only [if_true] at h
      cases hr : strongCutLoop n um cands st fl with
      | none => rw [hr] at h; cases h
      | some r =>
        obtain ⟨rs, s'⟩ := r
        rw [hr] at h
        simp only [Option.some.injEq, Prod.mk.injEq] at h
        obtain ⟨rfl, rfl⟩ := h
        have := ih hc hr
        simpa [removeCuts] using this
    | false =>
      simp only [Bool.false_eq_true, if_false] at h
      cases ha : strongCutAtom n um l.atom st (cands (!l.neg) l.atom) with
      | none => rw [ha] at h; cases h
      | some q =>
        obtain ⟨b, s1⟩ := q
        obtain ⟨a1, a0, a2, a3⟩ := strongCutAtom_spec hc ha
        rw [ha] at h
        cases hr : strongCutLoop n um cands s1 fl with
        | none => simp only [hr] at h; cases h
        | some r =>
          obtain ⟨rs, s'⟩ := r
          simp only [hr, Option.some.injEq, Prod.mk.injEq] at h
          obtain ⟨rfl, rfl⟩ := h
          obtain ⟨i1, i2, i3⟩ := ih a1 hr
          have hfl : ∀ k, k ∈ removeCuts ((l, false) :: fl) ↔ k = l ∨ k ∈ removeCuts fl := by
            intro k; simp [removeCuts]
          have hrs : ∀ k, k ∈ removeCuts ((l, b) :: rs) ↔ (b = false ∧ k = l) ∨ k ∈ removeCuts rs := by
            intro k; cases b <;> simp [removeCuts]
          refine ⟨?_, ?_, ?_⟩
          · intro k hk
            rw [hfl]
            rcases (hrs k).1 hk with ⟨_, e⟩ | hk
            · exact .inl e
            · exact .inr (i1 k hk)
          · intro k hk
            rw [hrs]
            rcases (hfl k).1 hk with rfl | hk
            · cases b with
              | true => exact .inr (a2 rfl)
              | false => exact .inl (.inl ⟨rfl, rfl⟩)
            · rcases i2 k hk with hk | hk
              · exact .inl (.inr hk)
              · exact .inr hk
          · intro e k hk
            have hs1 : s1 = St.empty := a0 e
            rcases (hrs k).1 hk with ⟨hb, rfl⟩ | hk
            · exact a3 hb e
            · exact i3 hs1 k hk

/-- the unit clauses that the index offers are true -/
def CandsTrue (I : Interp) (cands : Bool → Term → List Term) : Prop :=
  ∀ s x, ∀ t ∈ cands s x, ClTrue I [⟨s, t⟩]

theorem cut_false {I : Interp} {l : Lit} {y : Term} {θ : Nat → Term} (hy : ClTrue I [⟨!l.neg, y⟩])
    (he : subst θ y = subst θ l.atom) (ρ : Nat → I.D) : ¬ l.tr I (fun v => eval I ρ (θ v)) := by
  have h := unit_true hy (fun v => eval I ρ (θ v))
  have h2 : (⟨!l.neg, l.atom⟩ : Lit).tr I (fun v => eval I ρ (θ v)) := by
    rw [← Lit.tr_subst] at h ⊢
    simpa [Lit.subst, he] using h
  exact tr_not.1 h2

theorem ground_of {t : Term} (h : hasVars t = false) : vars t = [] := by
  simpa [hasVars] using h

theorem subst_ground {t : Term} (h : hasVars t = false) (θ : Nat → Term) : subst θ t = t := by
  conv => rhs; rw [← subst_id t]
  exact subst_congr (by rw [ground_of h]; simp)

theorem tr_ground {I : Interp} {l : Lit} (h : hasVars l.atom = false) (ρ ρ' : Nat → I.D) : l.tr I ρ ↔ l.tr I ρ' := by
  simp only [Lit.tr, eval_congr (ρ := ρ) (ρ' := ρ') l.atom (by rw [ground_of h]; simp)]

theorem one_nonground {U : List Lit} (h : U.countP (fun l => hasVars l.atom) ≤ 1) :
    (∀ l ∈ U, hasVars l.atom = false) ∨ ∃ N ∈ U, ∀ l ∈ U, l ≠ N → hasVars l.atom = false := by
  induction U with
  | nil => left; simp
  | cons k U ih =>
    by_cases hk : hasVars k.atom = true
    · right
      refine ⟨k, List.mem_cons_self, ?_⟩
      rw [List.countP_cons_of_pos (by simpa using hk)] at h
      have h0 : U.countP (fun l => hasVars l.atom) = 0 := by omega
      rw [List.countP_eq_zero] at h0
      intro l hl hne
      rcases List.mem_cons.1 hl with rfl | hl
      · exact absurd rfl hne
      · simpa using h0 l hl
    · rw [List.countP_cons_of_neg (by simpa using hk)] at h
      have hk' : hasVars k.atom = false := by simpa using hk
      rcases ih h with h1 | ⟨N, hN, h1⟩
      · left
        intro l hl
        rcases List.mem_cons.1 hl with rfl | hl
        · exact hk'
        · exact h1 l hl
      · right
        refine ⟨N, List.mem_cons_of_mem _ hN, ?_⟩
        intro l hl hne
        rcases List.mem_cons.1 hl with rfl | hl
        · exact hk'
        · exact h1 l hl hne

theorem countP_removeCuts (fl : List (Lit × Bool)) :
    (fl.filter (fun p => !p.2)).countP (fun p => hasVars p.1.atom) = (removeCuts fl).countP (fun l => hasVars l.atom) := by
  simp only [removeCuts, List.countP_map]
  rfl

/-- C18: strong cuts (by unification or matching with non-identical units) give a clause that is
true exactly when the clause was, whatever bindings the preceding inference left behind. -/
theorem C18_strong_cut_sound (n : Nat) (cands : Bool → Term → List Term) (st s : St) (hst : Clean st)
    (fl fl' : List (Lit × Bool)) (h : strongCut n cands st fl = some (fl', s)) (I : Interp) (hI : CandsTrue I cands) :
    ClTrue I (removeCuts fl') ↔ ClTrue I (removeCuts fl) := by
  simp only [strongCut] at h
  obtain ⟨i1, i2, _⟩ := strongCutLoop_spec hst h
  constructor
  · intro ht; exact ht.mono i1
  · intro ht ρ
    generalize hng : (if (fl.filter (fun p => !p.2)).length > 1 then
      (fl.filter (fun p => !p.2)).countP (fun p => hasVars p.1.atom) else 0) = ng at h i2
    by_cases hg : ng > 1
    · rw [decide_eq_true hg] at i2
      obtain ⟨l, hl, hlt⟩ := ht ρ
      rcases i2 l hl with hk | ⟨y, hy, hc⟩
      · exact ⟨l, hk, hlt⟩
      · obtain ⟨θ, hθ⟩ := hc
        exfalso
        -- `l` is an instance of the unit
        have hu := unit_true ((hI _ _ y hy).subst θ) ρ
        simp only [Lit.subst, hθ] at hu
        exact tr_not.1 hu hlt
    · rw [decide_eq_false hg] at i2
      have hcount : (removeCuts fl).countP (fun l => hasVars l.atom) ≤ 1 := by
        rw [← countP_removeCuts]
        split at hng
        · omega
        · have := List.countP_le_length (p := fun p : Lit × Bool => hasVars p.1.atom) (l := fl.filter (fun p => !p.2))
          omega
      have ground_cut : ∀ l, hasVars l.atom = false → l ∈ removeCuts fl → l.tr I ρ → l ∈ removeCuts fl' := by
        intro l hg hl hlt
        rcases i2 l hl with hk | ⟨y, hy, hc⟩
        · exact hk
        · obtain ⟨θ, hθ⟩ := hc
          exact absurd ((tr_ground hg _ _).1 hlt) (cut_false (hI _ _ y hy) hθ ρ)
      rcases one_nonground hcount with h0 | ⟨N, hN, h1⟩
      · obtain ⟨l, hl, hlt⟩ := ht ρ
        exact ⟨l, ground_cut l (h0 l hl) hl hlt, hlt⟩
      · rcases i2 N hN with hk | ⟨y, hy, hc⟩
        · obtain ⟨l, hl, hlt⟩ := ht ρ
          by_cases e : l = N
          · exact ⟨N, hk, e ▸ hlt⟩
          · exact ⟨l, ground_cut l (h1 l hl e) hl hlt, hlt⟩
        · obtain ⟨θ, hθ⟩ := hc
          obtain ⟨l, hl, hlt⟩ := ht (fun v => eval I ρ (θ v))
          by_cases e : l = N
          · subst e
            exact absurd hlt (cut_false (hI _ _ y hy) hθ ρ)
          · have hlt' := (tr_ground (h1 l hl e) _ ρ).1 hlt
            exact ⟨l, ground_cut l (h1 l hl e) hl hlt', hlt'⟩

/-- C18: started without left-over bindings, the strong cut misses nothing: no literal that is
kept is complementary to an instance of an offered unit; when at most one literal has variables,
none even has a common instance with an offered unit. -/
theorem C18_strong_cut_complete (n : Nat) (cands : Bool → Term → List Term) (s : St)
    (fl fl' : List (Lit × Bool)) (h : strongCut n cands St.empty fl = some (fl', s)) (l : Lit)
    (hl : l ∈ removeCuts fl') (y : Term) (hy : y ∈ cands (!l.neg) l.atom) :
    (¬ ∃ θ, subst θ y = l.atom) ∨
      ((removeCuts fl).countP (fun l => hasVars l.atom) ≤ 1 ∧ ¬ ∃ θ, subst θ y = subst θ l.atom) := by
  simp only [strongCut] at h
  obtain ⟨_, _, i3⟩ := strongCutLoop_spec clean_empty h
  have := i3 rfl l hl y hy
  generalize hng : (if (fl.filter (fun p => !p.2)).length > 1 then
      (fl.filter (fun p => !p.2)).countP (fun p => hasVars p.1.atom) else 0) = ng at h this
  by_cases hg : ng > 1
  · rw [decide_eq_true hg] at this
    exact .inl this
  · rw [decide_eq_false hg] at this
    refine .inr ⟨?_, this⟩
    rw [← countP_removeCuts]
    split at hng
    · omega
    · have := List.countP_le_length (p := fun p : Lit × Bool => hasVars p.1.atom) (l := fl.filter (fun p => !p.2))
      omega

/-! ### Double cuts -/

/-- the literal number `i` of a two-literal clause -/
def pick2 (y0 y1 : Lit) (i : Nat) : Lit := if i = 0 then y0 else y1

def PosAt (x : ALit) (xcl : List ALit) (y : Lit) : Prop := ∃ R ∈ xcl, R.addr ≠ x.addr ∧ R.lit = y
def NegAt (x : ALit) (xcl : List ALit) (y : Lit) : Prop :=
  ∃ L ∈ xcl, L.addr = x.addr ∧ L.neg = x.neg ∧ y = ⟨!L.neg, L.atom⟩

def DInv (x : ALit) (xcl : List ALit) (Y : Nat → Lit) (s : DSt) : Prop :=
  (s.done = true → ∃ a b, a < 2 ∧ b < 2 ∧ a ≠ b ∧ PosAt x xcl (Y a) ∧ NegAt x xcl (Y b)) ∧
  (s.done = false → s.posm = true → s.negm = false ∧ ∃ i, i < 2 ∧ s.iu = some i ∧ PosAt x xcl (Y i)) ∧
  (s.done = false → s.negm = true → s.posm = false ∧ ∃ i, i < 2 ∧ s.iu = some i ∧ NegAt x xcl (Y i))

theorem dcStep_inv {m : Term → Nat} {x : ALit} {xcl : List ALit} {Y : Nat → Lit} {i j : Nat} {xl : ALit} {s : DSt}
    (hi : i < 2) (hx : xl ∈ xcl) (h : DInv x xcl Y s) : DInv x xcl Y (dcStep m x i (Y i) j xl s) := by
  unfold dcStep
  split
  · exact h
  · rename_i hd
    have hd : s.done = false := by simpa using hd
    obtain ⟨_, h2, h3⟩ := h
    split
    · rename_i hp
      split
      · rename_i hq
        have hpos : PosAt x xcl (Y i) := by
          refine ⟨xl, hx, Ne.symm hp.1, ?_⟩
          have e := (eqTerm_iff _ _).1 hq.2.2.2
          show (⟨xl.neg, xl.atom⟩ : Lit) = Y i
          rw [← hp.2, ← e]
        refine ⟨?_, ?_, ?_⟩
        · intro hn
          obtain ⟨_, k, hk, hiu, hneg⟩ := h3 hd hn
          refine ⟨i, k, hi, hk, ?_, hpos, hneg⟩
          rintro rfl
          exact hq.2.1 hiu
        · intro hn _
          exact ⟨hn, i, hi, rfl, hpos⟩
        · intro hn hn'
          rw [show s.negm = false from hn] at hn'
          exact absurd hn' (by simp)
      · exact ⟨fun e => by simp [hd] at e, h2, h3⟩
    · split
      · rename_i hq
        have hneg : NegAt x xcl (Y i) := by
          refine ⟨xl, hx, hq.1.symm, hq.2.1.symm, ?_⟩
          have e := (eqTerm_iff _ _).1 hq.2.2.2.2.2.2
          have e2 : (Y i).neg = !xl.neg := by
            have := hq.2.2.2.2.1
            cases h1 : (Y i).neg <;> cases h2 : xl.neg <;> simp_all
          rw [← e, ← e2]
        refine ⟨?_, ?_, ?_⟩
        · intro hn
          obtain ⟨_, k, hk, hiu, hpos⟩ := h2 hd hn
          refine ⟨k, i, hk, hi, ?_, hpos, hneg⟩
          rintro rfl
          exact hq.2.2.2.1 hiu
        · intro hn hn'
          rw [show s.posm = false from hn] at hn'
          exact absurd hn' (by simp)
        · intro hn _
          exact ⟨hn, i, hi, rfl, hneg⟩
      · exact ⟨fun e => by simp [hd] at e, h2, h3⟩

theorem dcInner_inv {m : Term → Nat} {x : ALit} {xcl : List ALit} {Y : Nat → Lit} {i : Nat} (hi : i < 2) :
    ∀ {xls : List ALit} {j : Nat} {s : DSt}, (∀ l ∈ xls, l ∈ xcl) → DInv x xcl Y s →
      DInv x xcl Y (dcInner m x i (Y i) j xls s) := by
  intro xls
  induction xls with
  | nil => intro j s _ h; exact h
  | cons l xls ih =>
    intro j s hs h
    exact ih (fun k hk => hs k (List.mem_cons_of_mem _ hk)) (dcStep_inv hi (hs l List.mem_cons_self) h)

theorem dcAux_sound {m : Term → Nat} {x : ALit} {xcl : List ALit} {y0 y1 : Lit} (h : dcAux m x xcl y0 y1 = true) :
    ∃ R ∈ xcl, ∃ L ∈ xcl, R.addr ≠ x.addr ∧ L.addr = x.addr ∧ L.neg = x.neg ∧
      ((y0 = R.lit ∧ y1 = ⟨!L.neg, L.atom⟩) ∨ (y1 = R.lit ∧ y0 = ⟨!L.neg, L.atom⟩)) := by
  have h0 : DInv x xcl (pick2 y0 y1) ⟨false, false, none, none, false⟩ := by
    refine ⟨?_, ?_, ?_⟩ <;> simp
  have h1 := dcInner_inv (m := m) (i := 0) (by omega) (j := 0) (xls := xcl) (fun l hl => hl) h0
  have h2 := dcInner_inv (m := m) (i := 1) (by omega) (j := 0) (xls := xcl) (fun l hl => hl) h1
  obtain ⟨a, b, ha, hb, hab, ⟨R, hR, hRa, hRl⟩, L, hL, hLa, hLn, hLl⟩ := h2.1 h
  refine ⟨R, hR, L, hL, hRa, hLa, hLn, ?_⟩
  have : (a = 0 ∧ b = 1) ∨ (a = 1 ∧ b = 0) := by omega
  rcases this with ⟨rfl, rfl⟩ | ⟨rfl, rfl⟩
  · exact .inl ⟨hRl.symm, hLl⟩
  · exact .inr ⟨hRl.symm, hLl⟩

/-- the known two-literal clauses are true -/
def DoublesTrue (I : Interp) (bucket : Bool → Term → List (Lit × Lit)) : Prop :=
  ∀ s t, ∀ y ∈ bucket s t, ClTrue I [y.1, y.2]

/-- equal addresses mean the same atom -/
def AddrOk (cl : List ALit) : Prop := ∀ l ∈ cl, ∀ k ∈ cl, l.addr = k.addr → l.atom = k.atom

theorem doubleCut_sound {m : Term → Nat} {bucket : Bool → Term → List (Lit × Lit)} {x : ALit} {xcl : List ALit}
    (h : doubleCut m bucket x xcl = true) {I : Interp} (hI : DoublesTrue I bucket) :
    ∃ R ∈ xcl, ∃ L ∈ xcl, R.addr ≠ x.addr ∧ L.addr = x.addr ∧ L.neg = x.neg ∧
      ∀ ρ : Nat → I.D, L.lit.tr I ρ → R.lit.tr I ρ := by
  simp only [doubleCut, List.any_eq_true] at h
  obtain ⟨y, hy, hd⟩ := h
  obtain ⟨R, hR, L, hL, h1, h2, h3, h4⟩ := dcAux_sound hd
  refine ⟨R, hR, L, hL, h1, h2, h3, ?_⟩
  intro ρ ht
  have := hI _ _ y hy ρ
  obtain ⟨k, hk, hkt⟩ := this
  have hnL : ¬ (⟨!L.neg, L.atom⟩ : Lit).tr I ρ := fun hc => tr_not.1 hc ht
  simp only [List.mem_cons, List.not_mem_nil, or_false] at hk
  rcases h4 with ⟨e0, e1⟩ | ⟨e1, e0⟩
  · rcases hk with rfl | rfl
    · rw [e0] at hkt; exact hkt
    · rw [e1] at hkt; exact absurd hkt hnL
  · rcases hk with rfl | rfl
    · rw [e0] at hkt; exact absurd hkt hnL
    · rw [e1] at hkt; exact hkt

theorem doubleLoop_spec {m : Term → Nat} {bucket : Bool → Term → List (Lit × Lit)} {xcl : List ALit} :
    ∀ {xs : List ALit} {found : Bool}, doubleLoop m bucket xcl found xs = xs ∨
      (found = false ∧ ∃ pre x post, xs = pre ++ x :: post ∧ doubleLoop m bucket xcl found xs = pre ++ post ∧
        doubleCut m bucket x xcl = true) := by
  intro xs
  induction xs with
  | nil => intro found; left; rfl
  | cons x xs ih =>
    intro found
    simp only [doubleLoop]
    split
    · rename_i h
      simp only [Bool.and_eq_true, Bool.not_eq_true'] at h
      right
      refine ⟨h.1, [], x, xs, rfl, ?_, h.2⟩
      rcases ih (found := true) with h' | ⟨h', _⟩
      · simpa using h'
      · cases h'
    · rcases ih (found := found) with h' | ⟨hf, pre, z, post, e1, e2, e3⟩
      · left; rw [h']
      · right
        exact ⟨hf, x :: pre, z, post, by rw [e1]; rfl, by rw [e2]; rfl, e3⟩

/-- C18: the double cut removes at most one literal, and the clause keeps its truth value for
all values of its variables. -/
theorem C18_double_cut_sound (m : Term → Nat) (bucket : Bool → Term → List (Lit × Lit)) (xcl : List ALit)
    (ha : AddrOk xcl) (I : Interp) (hI : DoublesTrue I bucket) (ρ : Nat → I.D) :
    Holds I ρ (plain (doubleCutCl m bucket xcl)) ↔ Holds I ρ (plain xcl) := by
  unfold doubleCutCl
  split
  · rfl
  · rcases doubleLoop_spec (m := m) (bucket := bucket) (xcl := xcl) (xs := xcl) (found := false) with h | ⟨_, pre, x, post, e, h, hd⟩
    · rw [h]
    · rw [h]
      have hx : x ∈ xcl := by rw [e]; simp
      obtain ⟨R, hR, L, hL, h1, h2, h3, h4⟩ := doubleCut_sound hd hI
      constructor
      · rintro ⟨l, hl, ht⟩
        refine ⟨l, ?_, ht⟩
        rw [e]
        simp only [plain, List.map_append, List.mem_append, List.map_cons, List.mem_cons] at hl ⊢
        rcases hl with hl | hl
        · exact .inl hl
        · exact .inr (.inr hl)
      · have key : ∀ k ∈ xcl, k.addr ≠ x.addr → k.lit.tr I ρ → Holds I ρ (plain (pre ++ post)) := by
          intro k hk hka hkt
          refine ⟨k.lit, ?_, hkt⟩
          have : k ∈ pre ++ post := by
            rw [e] at hk
            simp only [List.mem_append, List.mem_cons] at hk ⊢
            rcases hk with hk | rfl | hk
            · exact .inl hk
            · exact absurd rfl hka
            · exact .inr hk
          exact List.mem_map_of_mem (f := fun l : ALit => (⟨l.neg, l.atom⟩ : Lit)) this
        rintro ⟨l, hl, ht⟩
        simp only [plain, List.mem_map] at hl
        obtain ⟨k, hk, rfl⟩ := hl
        by_cases hin : k ∈ pre ++ post
        · exact ⟨_, List.mem_map_of_mem (f := fun l : ALit => (⟨l.neg, l.atom⟩ : Lit)) hin, ht⟩
        · have : k = x := by
            rw [e] at hk
            simp only [List.mem_append, List.mem_cons, not_or] at hk hin
            rcases hk with hk | hk | hk
            · exact absurd hk hin.1
            · exact hk
            · exact absurd hk hin.2
          subst this
          refine key R hR h1 (h4 ρ ?_)
          have := ha L hL k hx h2
          show (⟨L.neg, L.atom⟩ : Lit).tr I ρ
          rw [h3, this]
          exact ht

/-! ### Simplification of the given clause -/

/-- rewriting and computing keep the meaning of the atoms of the clause -/
def RwSound (I : Interp) (rw' : ALit → Out (ALit × Bool)) (xcl : List ALit) : Prop :=
  ∀ x ∈ xcl, ∀ y w, rw' x = .ok (y, w) → ∀ ρ : Nat → I.D, I.tr (eval I ρ y.atom) ↔ I.tr (eval I ρ x.atom)

/-- a rebuilt atom has a new address, or it is the old atom -/
def RwAddr (rw' : ALit → Out (ALit × Bool)) (xcl : List ALit) : Prop :=
  ∀ x ∈ xcl, ∀ y w, rw' x = .ok (y, w) → (y.addr = x.addr ∧ y.atom = x.atom) ∨ ∀ k ∈ xcl, k.addr ≠ y.addr

/-- what is known after part of the literals were processed: `D` is the address and sign of the
literal removed by a double cut -/
structure SimpInv (I : Interp) (xcl : List ALit) (D : Option (Nat × Bool)) (pre : List ALit) (rs : List Lit) : Prop where
  fwd : ∀ x ∈ pre, D ≠ some (x.addr, x.neg) → ∀ ρ : Nat → I.D, x.lit.tr I ρ → Holds I ρ rs
  bwd : ∀ ρ : Nat → I.D, Holds I ρ rs → Holds I ρ (plain pre)
  dbl : ∀ a n, D = some (a, n) → ∃ R ∈ xcl, R.addr ≠ a ∧
    ∀ x ∈ xcl, x.addr = a → x.neg = n → ∀ ρ : Nat → I.D, x.lit.tr I ρ → R.lit.tr I ρ

theorem Holds.mono {I : Interp} {ρ : Nat → I.D} {cl cl' : List Lit} (h : Holds I ρ cl) (hs : ∀ l ∈ cl, l ∈ cl') :
    Holds I ρ cl' := by
  obtain ⟨l, hl, ht⟩ := h; exact ⟨l, hs l hl, ht⟩

theorem mem_plain {l : ALit} {cl : List ALit} (h : l ∈ cl) : l.lit ∈ plain cl :=
  List.mem_map_of_mem (f := fun l : ALit => (⟨l.neg, l.atom⟩ : Lit)) h

theorem plain_snoc (pre : List ALit) (x : ALit) : plain (pre ++ [x]) = plain pre ++ [x.lit] := by
  simp [plain, ALit.lit]

/-- a literal that is false everywhere is left out -/
theorem SimpInv.cut {I : Interp} {xcl : List ALit} {D pre rs} (h : SimpInv I xcl D pre rs) {x : ALit}
    (hx : ∀ ρ : Nat → I.D, ¬ x.lit.tr I ρ) : SimpInv I xcl D (pre ++ [x]) rs := by
  refine ⟨?_, ?_, h.dbl⟩
  · intro k hk hD ρ ht
    rcases List.mem_append.1 hk with hk | hk
    · exact h.fwd k hk hD ρ ht
    · rw [List.mem_singleton] at hk; subst hk; exact absurd ht (hx ρ)
  · intro ρ hh
    rw [plain_snoc]
    exact (h.bwd ρ hh).mono (fun l hl => List.mem_append_left _ hl)

/-- a literal is replaced by an equivalent one -/
theorem SimpInv.keep {I : Interp} {xcl : List ALit} {D pre rs} (h : SimpInv I xcl D pre rs) {x : ALit} {l : Lit}
    (hx : ∀ ρ : Nat → I.D, x.lit.tr I ρ ↔ l.tr I ρ) : SimpInv I xcl D (pre ++ [x]) (rs ++ [l]) := by
  refine ⟨?_, ?_, h.dbl⟩
  · intro k hk hD ρ ht
    rcases List.mem_append.1 hk with hk | hk
    · exact (h.fwd k hk hD ρ ht).mono (fun l hl => List.mem_append_left _ hl)
    · rw [List.mem_singleton] at hk; subst hk
      exact ⟨l, by simp, (hx ρ).1 ht⟩
  · rintro ρ ⟨k, hk, ht⟩
    rw [plain_snoc]
    rcases List.mem_append.1 hk with hk | hk
    · exact (h.bwd ρ ⟨k, hk, ht⟩).mono (fun l hl => List.mem_append_left _ hl)
    · rw [List.mem_singleton] at hk; subst hk
      exact ⟨x.lit, by simp, (hx ρ).2 ht⟩

theorem SimpInv.double {I : Interp} {xcl : List ALit} {pre rs} (h : SimpInv I xcl none pre rs) {x : ALit}
    (hd : ∃ R ∈ xcl, R.addr ≠ x.addr ∧
      ∀ k ∈ xcl, k.addr = x.addr → k.neg = x.neg → ∀ ρ : Nat → I.D, k.lit.tr I ρ → R.lit.tr I ρ) :
    SimpInv I xcl (some (x.addr, x.neg)) (pre ++ [x]) rs := by
  refine ⟨?_, ?_, ?_⟩
  · intro k hk hD ρ ht
    rcases List.mem_append.1 hk with hk | hk
    · exact h.fwd k hk (by simp) ρ ht
    · rw [List.mem_singleton] at hk; subst hk; exact absurd rfl hD
  · intro ρ hh
    rw [plain_snoc]
    exact (h.bwd ρ hh).mono (fun l hl => List.mem_append_left _ hl)
  · intro a n e
    simp only [Option.some.injEq, Prod.mk.injEq] at e
    obtain ⟨rfl, rfl⟩ := e
    exact hd

theorem SimpInv.final {I : Interp} {xcl : List ALit} {D rs} (h : SimpInv I xcl D xcl rs) (ρ : Nat → I.D) :
    Holds I ρ rs ↔ Holds I ρ (plain xcl) := by
  refine ⟨h.bwd ρ, ?_⟩
  rintro ⟨l, hl, ht⟩
  simp only [plain, List.mem_map] at hl
  obtain ⟨k, hk, rfl⟩ := hl
  by_cases hD : D = some (k.addr, k.neg)
  · obtain ⟨R, hR, hRa, hRt⟩ := h.dbl _ _ hD
    refine h.fwd R hR ?_ ρ (hRt k hk rfl rfl ρ ht)
    rw [hD]
    intro e
    simp only [Option.some.injEq, Prod.mk.injEq] at e
    exact hRa e.1.symm
  · exact h.fwd k hk hD ρ ht

theorem atomCut_sound {us : Units} {neg : Bool} {a : Term} {subs : Bool} {I : Interp} (hu : UnitsTrue I us)
    (ρ : Nat → I.D) : (atomCut us neg a subs < 0 → (⟨neg, a⟩ : Lit).tr I ρ) ∧
    (atomCut us neg a subs = 1 → ¬ (⟨neg, a⟩ : Lit).tr I ρ) := by
  unfold atomCut
  split
  · rename_i h
    simp only [Bool.and_eq_true, known_iff] at h
    exact ⟨fun _ => unit_true (hu _ _ (.inl h.2)) ρ, by simp⟩
  · split
    · rename_i h
      simp only [Bool.and_eq_true, known_iff] at h
      exact ⟨fun _ => unit_true (hu _ _ (.inr h.2)) ρ, by simp⟩
    · split
      · rename_i h
        rw [known_iff] at h
        exact ⟨by simp, fun _ => tr_not.1 (unit_true (hu _ _ (.inl h)) ρ)⟩
      · split
        · rename_i h
          rw [known_iff] at h
          exact ⟨by simp, fun _ => tr_not.1 (unit_true (hu _ _ (.inr h)) ρ)⟩
        · exact ⟨by simp, by simp⟩

theorem lit_tr_congr {I : Interp} {ρ : Nat → I.D} {n : Bool} {a b : Term} (h : I.tr (eval I ρ a) ↔ I.tr (eval I ρ b)) :
    (⟨n, a⟩ : Lit).tr I ρ ↔ (⟨n, b⟩ : Lit).tr I ρ := by
  cases n <;> simp [Lit.tr, h]

theorem simpLoop_spec {rw' : ALit → Out (ALit × Bool)} {us : Units} {m : Term → Nat}
    {bucket : Bool → Term → List (Lit × Lit)} {xcl : List ALit} {I : Interp} (hc : TruthOk I) (hu : UnitsTrue I us)
    (hb : DoublesTrue I bucket) (ha : AddrOk xcl) (hr : RwSound I rw' xcl) (hra : RwAddr rw' xcl) :
    ∀ (xs pre : List ALit) (rs : List Lit) (found chg : Bool) (D : Option (Nat × Bool)),
      xcl = pre ++ xs → SimpInv I xcl D pre rs → (found = false → D = none) →
      (∀ r, simpLoop rw' us m bucket xcl found chg rs xs = .ok r → ∃ D', SimpInv I xcl D' xcl r) ∧
      (simpLoop rw' us m bucket xcl found chg rs xs = .drop → ∃ x ∈ xs, ∀ ρ : Nat → I.D, x.lit.tr I ρ) := by
  intro xs
  induction xs with
  | nil =>
    intro pre rs found chg D e hi hf
    simp only [List.append_nil] at e
    subst e
    simp only [simpLoop]
    cases chg with
    | true =>
      refine ⟨fun r h => ?_, fun h => by simp at h⟩
      simp only [if_true, SRes.ok.injEq] at h
      subst h; exact ⟨D, hi⟩
    | false => exact ⟨fun r h => by simp at h, fun h => by simp at h⟩
  | cons x xs ih =>
    intro pre rs found chg D e hi hf
    have hx : x ∈ xcl := by rw [e]; simp
    have e' : xcl = (pre ++ [x]) ++ xs := by rw [e]; simp
    have lift : ∀ {P : Prop}, (P → ∃ z ∈ xs, ∀ ρ : Nat → I.D, z.lit.tr I ρ) → P → ∃ z ∈ x :: xs, ∀ ρ : Nat → I.D, z.lit.tr I ρ := by
      intro P h hp
      obtain ⟨z, hz, ht⟩ := h hp
      exact ⟨z, List.mem_cons_of_mem _ hz, ht⟩
    simp only [simpLoop]
    cases hrw : rw' x with
    | fuel => exact ⟨fun r h => by simp at h, fun h => by simp at h⟩
    | illegal => exact ⟨fun r h => by simp at h, fun h => by simp at h⟩
    | ok yw =>
      obtain ⟨y, w⟩ := yw
      have hs := hr x hx y w hrw
      have hxy : ∀ ρ : Nat → I.D, x.lit.tr I ρ ↔ (⟨x.neg, y.atom⟩ : Lit).tr I ρ :=
        fun ρ => (lit_tr_congr (hs ρ)).symm
      simp only
      split
      · rename_i ht
        have ht := (beq_iff _ _).1 ht
        cases hn : x.neg with
        | true =>
          simp only [if_true]
          have hcut : ∀ ρ : Nat → I.D, ¬ x.lit.tr I ρ := by
            intro ρ; rw [hxy, ht, hn]; simp [Lit.tr, eval, hc.1]
          obtain ⟨h1, h2⟩ := ih (pre ++ [x]) rs found true D e' (hi.cut hcut) hf
          exact ⟨h1, lift h2⟩
        | false =>
          simp only [Bool.false_eq_true, if_false]
          refine ⟨fun r h => by simp at h, fun _ => ⟨x, List.mem_cons_self, ?_⟩⟩
          intro ρ; rw [hxy, ht, hn]; simp [Lit.tr, eval, hc.1]
      · split
        · rename_i ht
          have ht := (beq_iff _ _).1 ht
          cases hn : x.neg with
          | true =>
            simp only [if_true]
            refine ⟨fun r h => by simp at h, fun _ => ⟨x, List.mem_cons_self, ?_⟩⟩
            intro ρ; rw [hxy, ht, hn]; simp [Lit.tr, eval, hc.2]
          | false =>
            simp only [Bool.false_eq_true, if_false]
            have hcut : ∀ ρ : Nat → I.D, ¬ x.lit.tr I ρ := by
              intro ρ; rw [hxy, ht, hn]; simp [Lit.tr, eval, hc.2]
            obtain ⟨h1, h2⟩ := ih (pre ++ [x]) rs found true D e' (hi.cut hcut) hf
            exact ⟨h1, lift h2⟩
        · generalize hsub : (!(decide (xcl.length < 2) && !w)) = subs
          split
          · rename_i hneg
            refine ⟨fun r h => by simp at h, fun _ => ⟨x, List.mem_cons_self, ?_⟩⟩
            intro ρ; rw [hxy]; exact (atomCut_sound hu ρ).1 hneg
          · split
            · rename_i hone
              have hcut : ∀ ρ : Nat → I.D, ¬ x.lit.tr I ρ := by
                intro ρ; rw [hxy]; exact (atomCut_sound hu ρ).2 hone
              obtain ⟨h1, h2⟩ := ih (pre ++ [x]) rs found true D e' (hi.cut hcut) hf
              exact ⟨h1, lift h2⟩
            · split
              · rename_i hd
                simp only [Bool.and_eq_true, Bool.not_eq_true', decide_eq_true_eq] at hd
                obtain ⟨⟨hfound, _⟩, hd⟩ := hd
                have hD := hf hfound
                subst hD
                obtain ⟨R, hR, L, hL, d1, d2, d3, d4⟩ := doubleCut_sound hd hb
                simp only at d1 d2 d3
                have hyx : y.addr = x.addr ∧ y.atom = x.atom := by
                  rcases hra x hx y w hrw with h | h
                  · exact h
                  · exact absurd d2 (h L hL)
                have hdbl : ∃ R ∈ xcl, R.addr ≠ x.addr ∧
                    ∀ k ∈ xcl, k.addr = x.addr → k.neg = x.neg → ∀ ρ : Nat → I.D, k.lit.tr I ρ → R.lit.tr I ρ := by
                  refine ⟨R, hR, hyx.1 ▸ d1, ?_⟩
                  intro k hk hka hkn ρ hkt
                  apply d4 ρ
                  have e1 : L.atom = k.atom := ha L hL k hk (by rw [d2, hyx.1, hka])
                  show (⟨L.neg, L.atom⟩ : Lit).tr I ρ
                  rw [e1, d3, ← hkn]; exact hkt
                obtain ⟨h1, h2⟩ := ih (pre ++ [x]) rs true true _ e' (hi.double hdbl) (by simp)
                exact ⟨h1, lift h2⟩
              · obtain ⟨h1, h2⟩ := ih (pre ++ [x]) (rs ++ [⟨x.neg, y.atom⟩]) found (chg || w) D e' (hi.keep hxy) hf
                exact ⟨h1, lift h2⟩

/-- C18: simplifying the given clause with units, two-literal clauses, rewriting and computing
gives a clause with the same truth value for all values of the variables (the empty clause, i.e.
a proof, included).  Dropping it means that it is true wherever the known clauses are. -/
theorem C18_simplify_sound (rw' : ALit → Out (ALit × Bool)) (us : Units) (m : Term → Nat)
    (bucket : Bool → Term → List (Lit × Lit)) (xcl : List ALit) (I : Interp) (hc : TruthOk I) (hu : UnitsTrue I us)
    (hb : DoublesTrue I bucket) (ha : AddrOk xcl) (hr : RwSound I rw' xcl) (hra : RwAddr rw' xcl) :
    (∀ r, simplifyCl rw' us m bucket xcl = .ok r → ∀ ρ : Nat → I.D, Holds I ρ r ↔ Holds I ρ (plain xcl)) ∧
    (simplifyCl rw' us m bucket xcl = .drop → ClTrue I (plain xcl)) := by
  have h0 : SimpInv I xcl none [] [] := ⟨by simp, by intro ρ h; exact h, by simp⟩
  obtain ⟨h1, h2⟩ := simpLoop_spec (m := m) hc hu hb ha hr hra xcl [] [] false false none rfl h0 (fun _ => rfl)
  refine ⟨fun r h ρ => ?_, fun h ρ => ?_⟩
  · obtain ⟨D, hD⟩ := h1 r h
    exact hD.final ρ
  · obtain ⟨x, hx, ht⟩ := h2 h
    exact ⟨x.lit, mem_plain hx, ht ρ⟩

/-- C18: the same for a fact. -/
theorem C18_simplify_fact_sound (rw' : ALit → Out (ALit × Bool)) (x : ALit) (hx : x.neg = false) (I : Interp)
    (hc : TruthOk I) (hr : RwSound I rw' [x]) :
    (∀ r, simplifyFact rw' x = .ok r → ∀ ρ : Nat → I.D, Holds I ρ r ↔ Holds I ρ (plain [x])) ∧
    (simplifyFact rw' x = .drop → ClTrue I (plain [x])) := by
  unfold simplifyFact
  cases hrw : rw' x with
  | fuel => exact ⟨fun r h => by simp at h, fun h => by simp at h⟩
  | illegal => exact ⟨fun r h => by simp at h, fun h => by simp at h⟩
  | ok yw =>
    obtain ⟨y, w⟩ := yw
    have hs := hr x (by simp) y w hrw
    have hxy : ∀ ρ : Nat → I.D, x.lit.tr I ρ ↔ (⟨false, y.atom⟩ : Lit).tr I ρ := by
      intro ρ
      show (⟨x.neg, x.atom⟩ : Lit).tr I ρ ↔ _
      rw [hx]; exact (lit_tr_congr (hs ρ)).symm
    have hp : ∀ ρ : Nat → I.D, Holds I ρ (plain [x]) ↔ x.lit.tr I ρ := by
      intro ρ; simp [Holds, plain, ALit.lit]
    simp only
    split
    · rename_i ht
      have ht := (beq_iff _ _).1 ht
      refine ⟨fun r h => by simp at h, fun _ ρ => ?_⟩
      refine (hp ρ).2 ((hxy ρ).2 ?_)
      rw [ht]; simp [Lit.tr, eval, hc.1]
    · split
      · rename_i ht
        have ht := (beq_iff _ _).1 ht
        refine ⟨fun r h ρ => ?_, fun h => by simp at h⟩
        simp only [SRes.ok.injEq] at h
        subst h
        rw [hp, hxy, ht]
        simp [Holds, Lit.tr, eval, hc.2]
      · split
        · refine ⟨fun r h ρ => ?_, fun h => by simp at h⟩
          simp only [SRes.ok.injEq] at h
          subst h
          rw [hp, hxy]; simp [Holds]
        · exact ⟨fun r h => by simp at h, fun h => by simp at h⟩

/-! ### From the collected literals to the stored clause -/

/-- storing a clause gives its atoms addresses without changing the literals -/
def TagOk (tag : List Lit → List ALit) : Prop := ∀ ls, plain (tag ls) = ls ∧ AddrOk (tag ls)

theorem clTrue_iff {I : Interp} {a b : List Lit} (h : ∀ ρ : Nat → I.D, Holds I ρ a ↔ Holds I ρ b) : ClTrue I a ↔ ClTrue I b :=
  ⟨fun x ρ => (h ρ).1 (x ρ), fun x ρ => (h ρ).2 (x ρ)⟩

/-- C18: everything done to a derived clause before it is stored (simple cuts, strong cuts,
strong duplicates, double cut) keeps its truth value, and a clause is dropped as subsumed only
when the known units make it true. -/
theorem C18_derived_clause_sound (fwd strong sdup : Bool) (us : Units) (n : Nat) (cands : Bool → Term → List Term)
    (m : Term → Nat) (bucket : Bool → Term → List (Lit × Lit)) (tag : List Lit → List ALit) (st : St) (rs : List Lit)
    (I : Interp) (hu : UnitsTrue I us) (hcand : CandsTrue I cands) (hb : DoublesTrue I bucket) (htag : TagOk tag)
    (hst : Clean st) :
    (∀ r, finish fwd strong sdup us n cands m bucket tag st rs = .ok r → (ClTrue I r ↔ ClTrue I rs)) ∧
    (finish fwd strong sdup us n cands m bucket tag st rs = .subsumed → ClTrue I rs) := by
  unfold finish
  split
  · rename_i he
    rw [List.isEmpty_iff] at he
    subst he
    exact ⟨fun r h => by simp only [Fin.ok.injEq] at h; rw [← h], fun h => by simp at h⟩
  · cases hcs : cutSubsume fwd us rs with
    | none =>
      refine ⟨fun r h => by simp at h, fun _ => ?_⟩
      obtain ⟨l, hl, hk, hi⟩ := C18_subsumed_implied fwd us rs hcs
      exact hi I (hu _ _ hk)
    | some fl =>
      have h1 : ClTrue I (removeCuts fl) ↔ ClTrue I rs := clTrue_iff (C18_unit_cut_sound fwd us rs fl hcs I hu)
      simp only
      cases hsc : (if strong then (strongCut n cands st fl).map (·.1) else some fl) with
      | none => exact ⟨fun r h => by simp at h, fun h => by simp at h⟩
      | some fl' =>
        have h2 : ClTrue I (removeCuts fl') ↔ ClTrue I (removeCuts fl) := by
          cases strong with
          | true =>
            simp only [if_true, Option.map_eq_some_iff] at hsc
            obtain ⟨⟨f, s⟩, hf, rfl⟩ := hsc
            exact C18_strong_cut_sound n cands st s hst fl f hf I hcand
          | false =>
            simp only [Bool.false_eq_true, if_false, Option.some.injEq] at hsc
            rw [hsc]
        simp only
        split
        · rename_i he
          rw [List.isEmpty_iff] at he
          refine ⟨fun r h => ?_, fun h => by simp at h⟩
          simp only [Fin.ok.injEq] at h
          rw [← h, ← h1, ← h2, he]
        · cases hsd : (if (removeCuts fl').length > 1 && sdup then strongDup (removeCuts fl') else some (removeCuts fl')) with
          | none => exact ⟨fun r h => by simp at h, fun h => by simp at h⟩
          | some ls' =>
            have h3 : ClTrue I ls' ↔ ClTrue I (removeCuts fl') := by
              split at hsd
              · exact C17_equivalent_partial _ _ hsd I
              · simp only [Option.some.injEq] at hsd
                rw [hsd]
            refine ⟨fun r h => ?_, fun h => by simp at h⟩
            simp only [Fin.ok.injEq] at h
            obtain ⟨t1, t2⟩ := htag ls'
            have h4 := clTrue_iff (C18_double_cut_sound m bucket (tag ls') t2 I hb)
            rw [t1] at h4
            rw [← h]
            show ClTrue I (plain (doubleCutCl m bucket (tag ls'))) ↔ _
            rw [h4, h3, h2, h1]

/-! ### Examples -/

/-- `p(a) | q(X)` with the known unit `-p(a)` -/
example : cutSubsume true ⟨fun n => if n then [ap "p" [cn "a"]] else [], fun _ => []⟩
      [⟨false, ap "p" [cn "a"]⟩, ⟨false, ap "q" [.var 3000]⟩] =
    some [(⟨false, ap "p" [cn "a"]⟩, true), (⟨false, ap "q" [.var 3000]⟩, false)] := by rfl

/-- `p(X) | q(a)` with the unit `-p(f(Y))`: only one literal has variables, so unification is
used and `p(X)` is cut; with `q(X)` instead of `q(a)` it is not -/
example : (∃ s, strongCut 9 (fun n _ => if n then [ap "p" [ap "f" [.var 2000]]] else []) St.empty
      [(⟨false, ap "p" [.var 3000]⟩, false), (⟨false, ap "q" [cn "a"]⟩, false)] =
    some ([(⟨false, ap "p" [.var 3000]⟩, true), (⟨false, ap "q" [cn "a"]⟩, false)], s)) ∧
    (∃ s, strongCut 9 (fun n _ => if n then [ap "p" [ap "f" [.var 2000]]] else []) St.empty
      [(⟨false, ap "p" [.var 3000]⟩, false), (⟨false, ap "q" [.var 3000]⟩, false)] =
    some ([(⟨false, ap "p" [.var 3000]⟩, false), (⟨false, ap "q" [.var 3000]⟩, false)], s)) :=
  ⟨⟨_, rfl⟩, ⟨_, rfl⟩⟩

/-- left-over bindings can hide a cut: with `Y` bound to `b` the unit `-p(Y)` does not cut
`p(a)` -/
example : (∃ s, strongCutAtom 9 false (ap "p" [cn "a"]) (St.empty.set 2000 (cn "b")) [ap "p" [.var 2000]] = some (false, s)) ∧
    (∃ s, strongCutAtom 9 false (ap "p" [cn "a"]) St.empty [ap "p" [.var 2000]] = some (true, s)) :=
  ⟨⟨_, rfl⟩, ⟨_, rfl⟩⟩

/-- `p | q(a)` with the two-literal clause `-p | q(a)` loses `p` -/
example : (doubleCutCl (fun _ => 0) (fun _ _ => [(⟨true, cn "p"⟩, ⟨false, ap "q" [cn "a"]⟩)])
      [⟨1, false, cn "p"⟩, ⟨2, false, ap "q" [cn "a"]⟩]).map ALit.lit = [⟨false, ap "q" [cn "a"]⟩] := by rfl

/-- simplification with rewriting off: the unit `-p` cuts, then nothing is left of `p` -/
example : simplifyCl (fun x => .ok (x, false)) ⟨fun n => if n then [cn "p"] else [], fun _ => []⟩ (fun _ => 0) (fun _ _ => [])
      [⟨1, false, cn "p"⟩] = .ok [] := by rfl

/-- the hypotheses can be met -/
example : ∃ I : Interp, TruthOk I ∧ UnitsTrue I ⟨fun n => if n then [cn "p"] else [], fun _ => []⟩ := by
  refine ⟨propInterp (fun c => c = aTrue), ⟨rfl, by simp [propInterp, aTrue, aFalse]⟩, ?_⟩
  intro s t ht
  simp only [Units.has, List.not_mem_nil, or_false] at ht
  cases s with
  | false => simp at ht
  | true =>
    simp only [if_true, List.mem_singleton] at ht
    subst ht
    intro ρ
    exact ⟨_, List.mem_singleton.2 rfl, by simp [Lit.tr, eval, propInterp, cn, aTrue]⟩

end Gkc.Props
