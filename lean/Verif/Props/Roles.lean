import Verif.Props.Rewrite
/-
Roles of symbols: predicate, function or constant.  Lemmas that unification, building, the
inferences and rewriting keep to the roles.  Used for the saturation loop (Props/Saturate).
-/
namespace Gkc.Props
open Gkc Term

/-- how a symbol is used -/
inductive Role
  | pred
  | func
  | cnst
  deriving DecidableEq

mutual
/-- a term in which every symbol is used in its role -/
def WtT (sg : Const → Role) : Term → Prop
  | .var _ => True
  | .const c => sg c = .cnst
  | .app f as => sg f = .func ∧ WtL sg as
def WtL (sg : Const → Role) : List Term → Prop
  | [] => True
  | a :: as => WtT sg a ∧ WtL sg as
end

/-- an atom in which every symbol is used in its role; equality has two arguments -/
def WtAtom (sg : Const → Role) : Term → Prop
  | .var _ => False
  | .const c => sg c = .pred
  | .app p as => sg p = .pred ∧ WtL sg as ∧ (p = .sym "=" → as.length = 2)

/-- evaluation of computable terms keeps to the roles and brings in no variables -/
structure EvRole (sg : Const → Role) (ev : Term → Option Term) : Prop where
  term : ∀ t t', WtT sg t → ev t = some t' → WtT sg t'
  atom : ∀ p as t', WtAtom sg (.app p as) → ev (.app p as) = some t' →
    t' = .const aTrue ∨ t' = .const aFalse ∨ ∃ bs, t' = .app p bs ∧ WtAtom sg (.app p bs)
  vars : ∀ t t', ev t = some t' → ∀ v ∈ vars t', v ∈ vars t

theorem wtL_iff {sg : Const → Role} {as : List Term} : WtL sg as ↔ ∀ a ∈ as, WtT sg a := by
  induction as with
  | nil => simp [WtL]
  | cons a as ih => simp [WtL, ih]

theorem EvRole.some (sg : Const → Role) : EvRole sg some := by
  refine ⟨?_, ?_, ?_⟩
  · intro t t' h e; cases e; exact h
  · intro p as t' h e; cases e; exact .inr (.inr ⟨as, rfl, h⟩)
  · intro t t' e v hv; cases e; exact hv

/-! ### Substitution -/

theorem WtT.subst {sg : Const → Role} {θ : Nat → Term} : ∀ {t : Term}, WtT sg t → (∀ v ∈ Term.vars t, WtT sg (θ v)) →
    WtT sg (Term.subst θ t) := by
  intro t
  induction t using Term.ind with
  | hv v => intro _ h; simpa using h v (by simp)
  | hc c => intro h _; simpa using h
  | ha f as ih =>
    intro h hv
    rw [subst_app]
    refine ⟨h.1, ?_⟩
    rw [wtL_iff]
    intro b hb
    obtain ⟨a, ha, rfl⟩ := List.mem_map.1 hb
    exact ih a ha (wtL_iff.1 h.2 a ha) (fun v hv' => hv v (by rw [vars_app, mem_varsL]; exact ⟨a, ha, hv'⟩))

theorem WtAtom.subst {sg : Const → Role} {θ : Nat → Term} {t : Term} (h : WtAtom sg t)
    (hv : ∀ v ∈ Term.vars t, WtT sg (θ v)) : WtAtom sg (Term.subst θ t) := by
  cases t with
  | var v => exact h.elim
  | const c => simpa using h
  | app p as =>
    rw [subst_app]
    refine ⟨h.1, ?_, by simpa using h.2.2⟩
    rw [wtL_iff]
    intro b hb
    obtain ⟨a, ha, rfl⟩ := List.mem_map.1 hb
    exact (wtL_iff.1 h.2.1 a ha).subst (fun v hv' => hv v (by rw [vars_app, mem_varsL]; exact ⟨a, ha, hv'⟩))

/-! ### Evaluation -/

theorem norm_vars {sg : Const → Role} {ev : Term → Option Term} (he : EvRole sg ev) : ∀ {t t' : Term}, norm ev t = some t' →
    ∀ v ∈ vars t', v ∈ vars t := by
  intro t
  induction t using Term.ind with
  | hv v => intro t' h; simp only [norm, Option.some.injEq] at h; subst h; exact fun v hv => hv
  | hc c => intro t' h; simp only [norm, Option.some.injEq] at h; subst h; exact fun v hv => hv
  | ha f as ih =>
    intro t' h v hv
    simp only [norm] at h
    split at h
    · cases h
    · rename_i as' e
      have hv' := he.vars (.app f as') t' h v hv
      rw [vars_app] at hv'
      have key : ∀ (as as' : List Term), (∀ t ∈ as, ∀ {t'}, norm ev t = some t' → ∀ v ∈ vars t', v ∈ vars t) →
          normL ev as = some as' → ∀ v ∈ varsL as', v ∈ varsL as := by
        intro as
        induction as with
        | nil => intro as' _ e; simp only [normL, Option.some.injEq] at e; subst e; exact fun v hv => hv
        | cons a as ih2 =>
          intro as' hh e v hv
          simp only [normL] at e
          split at e
          · cases e
          · rename_i a' ea
            split at e
            · cases e
            · rename_i as2 e2
              cases e
              simp only [varsL_cons, List.mem_append] at hv ⊢
              rcases hv with hv | hv
              · exact .inl (hh a List.mem_cons_self ea v hv)
              · exact .inr (ih2 as2 (fun t ht => hh t (List.mem_cons_of_mem _ ht)) e2 v hv)
      rw [vars_app]
      exact key as as' ih e v hv'

theorem normL_cons {ev : Term → Option Term} {a : Term} {as bs : List Term} (h : normL ev (a :: as) = some bs) :
    ∃ b bs', norm ev a = some b ∧ normL ev as = some bs' ∧ bs = b :: bs' := by
  simp only [normL] at h
  split at h
  · cases h
  · rename_i a' ea
    split at h
    · cases h
    · rename_i as2 e2
      cases h
      exact ⟨a', as2, ea, e2, rfl⟩

theorem normL_wt {sg : Const → Role} {ev : Term → Option Term} : ∀ {as as' : List Term},
    (∀ t ∈ as, ∀ t', norm ev t = some t' → WtT sg t → WtT sg t') → normL ev as = some as' → WtL sg as →
    WtL sg as' ∧ as'.length = as.length := by
  intro as
  induction as with
  | nil => intro as' _ e _; simp only [normL, Option.some.injEq] at e; subst e; exact ⟨trivial, rfl⟩
  | cons a as ih =>
    intro as' hh e hw
    obtain ⟨b, bs, e1, e2, rfl⟩ := normL_cons e
    have h1 := ih (fun t ht => hh t (List.mem_cons_of_mem _ ht)) e2 hw.2
    exact ⟨⟨hh a List.mem_cons_self b e1 hw.1, h1.1⟩, by simp [h1.2]⟩

theorem norm_wt {sg : Const → Role} {ev : Term → Option Term} (he : EvRole sg ev) : ∀ {t : Term} (t' : Term), norm ev t = some t' →
    WtT sg t → WtT sg t' := by
  intro t
  induction t using Term.ind with
  | hv v => intro t' h hw; simp only [norm, Option.some.injEq] at h; subst h; exact hw
  | hc c => intro t' h hw; simp only [norm, Option.some.injEq] at h; subst h; exact hw
  | ha f as ih =>
    intro t' h hw
    simp only [norm] at h
    split at h
    · cases h
    · rename_i as' e
      exact he.term (.app f as') t' ⟨hw.1, (normL_wt ih e hw.2).1⟩ h

theorem norm_wtAtom {sg : Const → Role} {ev : Term → Option Term} (he : EvRole sg ev) {t t' : Term} (h : norm ev t = some t')
    (hw : WtAtom sg t) : t' = .const aTrue ∨ t' = .const aFalse ∨ (WtAtom sg t' ∧
      ∀ c, t' = .const c → t = .const c) := by
  cases t with
  | var v => exact hw.elim
  | const c =>
    simp only [norm, Option.some.injEq] at h
    subst h
    exact .inr (.inr ⟨hw, fun _ e => e⟩)
  | app p as =>
    simp only [norm] at h
    split at h
    · cases h
    · rename_i as' e
      have h1 := normL_wt (fun t _ t' => norm_wt he t') e hw.2.1
      rcases he.atom p as' t' ⟨hw.1, h1.1, fun hp => by rw [h1.2]; exact hw.2.2 hp⟩ h with h2 | h2 | ⟨bs, rfl, h2⟩
      · exact .inl h2
      · exact .inr (.inl h2)
      · exact .inr (.inr ⟨h2, fun c e => by cases e⟩)

/-! ### Unification -/

/-- all values of variables satisfy `Q` -/
def Vals (Q : Term → Prop) (st : St) : Prop := ∀ v t, st.b v = some t → Q t

theorem Vals.walk {Q : Term → Prop} {st : St} (h : Vals Q st) : ∀ {n x r}, walk st.b n x = some r → Q x → Q r := by
  intro n
  induction n with
  | zero => intro x r e; simp [Gkc.walk] at e
  | succ n ih =>
    intro x r e hx
    cases x with
    | var v =>
      simp only [Gkc.walk] at e
      split at e
      · simp only [Option.some.injEq] at e; subst e; exact hx
      · rename_i t hb; exact ih e (h v t hb)
    | const c => simp [Gkc.walk] at e; subst e; exact hx
    | app f as => simp [Gkc.walk] at e; subst e; exact hx

theorem Vals.set {Q : Term → Prop} {st : St} (h : Vals Q st) {v t} (ht : Q t) : Vals Q (st.set v t) := by
  intro w s hw
  simp only [St.set] at hw
  split at hw
  · simp only [Option.some.injEq] at hw; subst hw; exact ht
  · exact h w s hw

theorem Vals.unifyL {Q : Term → Prop} {u : St → Term → Term → Option (Bool × St)}
    (hu : ∀ st x y r st', Vals Q st → Q x → Q y → u st x y = some (r, st') → Vals Q st') :
    ∀ (ts us : List Term) (st : St) {r st'}, Vals Q st → (∀ t ∈ ts, Q t) →
      (∀ t ∈ us, Q t) → unifyL u st ts us = some (r, st') → Vals Q st' := by
  intro ts
  induction ts with
  | nil =>
    intro us st r st' hr _ _ h
    cases us <;> (simp only [Gkc.unifyL, Option.some.injEq, Prod.mk.injEq] at h; rw [← h.2]; exact hr)
  | cons t ts ih2 =>
    intro us st r st' hr hx' hy' h
    cases us with
    | nil => simp only [Gkc.unifyL, Option.some.injEq, Prod.mk.injEq] at h; rw [← h.2]; exact hr
    | cons w us =>
      simp only [Gkc.unifyL] at h
      split at h
      · cases h
      · rename_i st1 e
        exact ih2 us st1 (hu _ _ _ _ _ hr (hx' _ List.mem_cons_self) (hy' _ List.mem_cons_self) e)
          (fun t ht => hx' t (List.mem_cons_of_mem _ ht)) (fun t ht => hy' t (List.mem_cons_of_mem _ ht)) h
      · rename_i st1 e
        have := hu _ _ _ _ _ hr (hx' _ List.mem_cons_self) (hy' _ List.mem_cons_self) e
        simp only [Option.some.injEq, Prod.mk.injEq] at h
        rw [← h.2]; exact this

theorem Vals.unify {Q : Term → Prop} (hQ : ∀ f as, Q (.app f as) → ∀ a ∈ as, Q a) : ∀ n st x y r st', Vals Q st → Q x →
    Q y → unify n st x y = some (r, st') → Vals Q st' := by
  intro n
  induction n with
  | zero => intro st x y r st' _ _ _ h; simp [Gkc.unify] at h
  | succ n ih =>
    intro st x y r st' hr hx hy h
    simp only [Gkc.unify] at h
    split at h
    case h_2 => cases h
    case h_1 x' y' ex ey =>
    have hx' := hr.walk ex hx
    have hy' := hr.walk ey hy
    have fin : ∀ {q s}, Vals Q s → some (q, s) = some (r, st') → Vals Q st' := by
      intro q s hs e
      simp only [Option.some.injEq, Prod.mk.injEq] at e
      rw [← e.2]; exact hs
    split at h
    · split at h
      · exact fin hr h
      · exact fin (hr.set hy') h
    · exact fin (hr.set hy') h
    · exact fin (hr.set hx') h
    · split at h
      · exact fin hr h
      · exact fin hr h
    · split at h
      · cases h
      · exact fin hr h
      · exact fin (hr.set hy') h
    · exact fin hr h
    · split at h
      · cases h
      · exact fin hr h
      · exact fin (hr.set hx') h
    · exact fin hr h
    · split at h
      · exact fin hr h
      · split at h
        · exact fin hr h
        · exact Vals.unifyL ih _ _ st hr (hQ _ _ hx') (hQ _ _ hy') h

theorem wt_args {sg : Const → Role} (f : Const) (as : List Term) (h : WtT sg (.app f as)) : ∀ a ∈ as, WtT sg a :=
  wtL_iff.1 h.2

theorem vals_empty {Q : Term → Prop} : Vals Q St.empty := by intro v t h; simp [St.empty] at h

theorem walk_nonvar {b : Nat → Option Term} {n : Nat} {x y : Term} (h : walk b n x = some y) (hx : ∀ v, x ≠ .var v) : y = x := by
  cases n with
  | zero => simp [Gkc.walk] at h
  | succ n =>
    cases x with
    | var v => exact absurd rfl (hx v)
    | const c => simp [Gkc.walk] at h; exact h.symm
    | app f as => simp [Gkc.walk] at h; exact h.symm

theorem WtAtom.nonvar {sg : Const → Role} {x : Term} (h : WtAtom sg x) (v : Nat) : x ≠ .var v := by
  rintro rfl; exact h

theorem unify_atoms_wt {sg : Const → Role} {n : Nat} {x y : Term} {r st} (hx : WtAtom sg x) (hy : WtAtom sg y)
    (h : unify n St.empty x y = some (r, st)) : Vals (WtT sg) st := by
  cases n with
  | zero => simp [Gkc.unify] at h
  | succ n =>
    have fin : ∀ {q}, some (q, St.empty) = some (r, st) → Vals (WtT sg) st := by
      intro q e
      simp only [Option.some.injEq, Prod.mk.injEq] at e
      rw [← e.2]; exact vals_empty
    simp only [Gkc.unify] at h
    split at h
    case h_2 => cases h
    case h_1 x' y' ex ey =>
    have e1 := walk_nonvar ex hx.nonvar
    have e2 := walk_nonvar ey hy.nonvar
    subst e1; subst e2
    split at h
    · exact hx.elim
    · exact hx.elim
    · exact hy.elim
    · split at h <;> exact fin h
    · exact hx.elim
    · exact fin h
    · exact hy.elim
    · exact fin h
    · split at h
      · exact fin h
      · split at h
        · exact fin h
        · exact Vals.unifyL (Vals.unify wt_args n) _ _ _ vals_empty (wtL_iff.1 hx.2.1) (wtL_iff.1 hy.2.1) h

/-- the denoted substitution keeps to the roles -/
theorem den_wt {sg : Const → Role} {st : St} {θ : Nat → Term} (hd : Den st.b θ) (hc : Acyclic st.b) (hv : Vals (WtT sg) st) :
    ∀ v, WtT sg (θ v) := by
  obtain ⟨rank, hk⟩ := hc
  have key : ∀ k v, rank v < k → WtT sg (θ v) := by
    intro k
    induction k with
    | zero => intro v h; omega
    | succ k ih =>
      intro v hlt
      cases hb : st.b v with
      | none => rw [hd.free v hb]; trivial
      | some t =>
        rw [hd.bound v t hb]
        exact (hv v t hb).subst (fun w hw => ih w (by have := hk v w ⟨t, hb, hw⟩; omega))
  intro v; exact key _ v (Nat.lt_succ_self _)

theorem unify_acyclic {n : Nat} {x y : Term} {b : Bool} {st : St} (h : unify n St.empty x y = some (b, st)) : Acyclic st.b :=
  (unify_spec _ _ _ _ _ _ h).2.1 ⟨fun _ => 0, by rintro v w ⟨t, ht, _⟩; simp [St.empty] at ht⟩

/-! ### Collected literals -/

/-- the variable belongs to the bank -/
def InBank (b v : Nat) : Prop := b * 1000 ≤ v ∧ v < b * 1000 + 1000

/-- literals whose atoms keep to the roles, with variables of one bank -/
def WtCl (sg : Const → Role) (b : Nat) (cl : List Lit) : Prop :=
  ∀ l ∈ cl, WtAtom sg l.atom ∧ ∀ v ∈ vars l.atom, InBank b v

theorem renT_wt {sg : Const → Role} {bank : Nat} {names : List Nat} {t : Term} (h : WtAtom sg t) :
    WtAtom sg (Term.subst (renT bank names) t) := h.subst (fun _ _ => trivial)

theorem renT_bank {bank : Nat} {names : List Nat} (hl : names.length ≤ 1000) {t : Term} (hv : ∀ v ∈ vars t, v ∈ names) :
    ∀ v ∈ vars (Term.subst (renT bank names) t), InBank bank v := by
  intro v h
  obtain ⟨w, hw, h⟩ := mem_vars_subst.1 h
  simp only [renT, vars_var, List.mem_singleton] at h
  have := List.idxOf_lt_length_iff.2 (hv w hw)
  subst h
  exact ⟨by omega, by omega⟩

theorem built_wt {sg : Const → Role} {ev : Term → Option Term} (he : EvRole sg ev) {bank : Nat} {names : List Nat}
    (hl : names.length ≤ 1000) {Ls Ns : List Lit} (h : Built ev bank names Ls Ns) (hw : ∀ l ∈ Ls, WtAtom sg l.atom) :
    ∀ l ∈ Ns, (l.atom = .const aTrue ∨ l.atom = .const aFalse ∨ WtAtom sg l.atom) ∧ ∀ v ∈ vars l.atom, InBank bank v := by
  induction h with
  | nil => simp
  | cons h _ ih =>
    obtain ⟨h1, h2, h3⟩ := h
    intro k hk
    rcases List.mem_cons.1 hk with rfl | hk
    · refine ⟨?_, ?_⟩
      · rcases norm_wtAtom he h2 (renT_wt (hw _ List.mem_cons_self)) with h | h | h
        · exact .inl h
        · exact .inr (.inl h)
        · exact .inr (.inr h.1)
      · intro v hv
        exact renT_bank hl h3 v (norm_vars he h2 v hv)
    · exact ih (fun l hl => hw l (List.mem_cons_of_mem _ hl)) k hk

theorem collected_wt {sg : Const → Role} {ev : Term → Option Term} (he : EvRole sg ev) {bank : Nat} {Ls rs : List Lit}
    (h : Collected ev bank Ls rs) (hw : ∀ l ∈ Ls, WtAtom sg l.atom) : WtCl sg bank rs := by
  obtain ⟨names, Ns, _, hl, hB, hM⟩ := h.shape
  intro l hr
  have h1 := (hM.only l hr).resolve_left (by simp)
  have h2 := (hM.notruth l hr).resolve_left (by simp)
  obtain ⟨h3, h4⟩ := built_wt he hl hB hw l h1
  rcases h3 with h | h | h
  · exact absurd h h2.1
  · exact absurd h h2.2
  · exact ⟨h, h4⟩

/-! ### Places in terms -/

theorem wtL_append {sg : Const → Role} {as bs : List Term} : WtL sg (as ++ bs) ↔ WtL sg as ∧ WtL sg bs := by
  simp only [wtL_iff, List.mem_append]
  exact ⟨fun h => ⟨fun a ha => h a (.inl ha), fun a ha => h a (.inr ha)⟩, fun h a ha => ha.elim (h.1 a) (h.2 a)⟩

theorem wt_fill {sg : Const → Role} {u : Term} : ∀ {C : Ctx}, WtT sg (C.fill u) →
    WtT sg u ∧ ∀ t, WtT sg t → WtT sg (C.fill t) := by
  intro C
  induction C with
  | hole => intro h; exact ⟨h, fun t ht => ht⟩
  | app f pre c post ih =>
    intro h
    simp only [Ctx.fill, WtT, wtL_append, WtL] at h ⊢
    obtain ⟨h1, h2, h3, h4⟩ := h
    exact ⟨(ih h3).1, fun t ht => ⟨h1, h2, (ih h3).2 t ht, h4⟩⟩

theorem wtAtom_fill {sg : Const → Role} {u : Term} {C : Ctx} (hC : C ≠ .hole) (h : WtAtom sg (C.fill u)) :
    WtT sg u ∧ ∀ t, WtT sg t → WtAtom sg (C.fill t) := by
  cases C with
  | hole => exact absurd rfl hC
  | app f pre c post =>
    simp only [Ctx.fill, WtAtom, wtL_append, WtL] at h ⊢
    obtain ⟨h1, ⟨h2, h3, h4⟩, h5⟩ := h
    exact ⟨(wt_fill h3).1, fun t ht => ⟨h1, ⟨h2, (wt_fill h3).2 t ht, h4⟩, by simpa using h5⟩⟩

/-! ### Inferences -/

/-- the atoms of a stored clause keep to the roles -/
def WtA (sg : Const → Role) (cl : List ALit) : Prop := ∀ l ∈ cl, WtAtom sg l.atom

theorem WtA.eqBinary {sg : Const → Role} {cl : List ALit} (h : WtA sg cl) : EqBinary cl := by
  intro l hl as e
  have := h l hl
  rw [e] at this
  exact this.2.2 rfl

theorem others_wt {sg : Const → Role} {cl : List ALit} (h : WtA sg cl) {a : Nat} {θ : Nat → Term} (hθ : ∀ v, WtT sg (θ v)) :
    ∀ l ∈ (others a cl).map (Lit.subst θ), WtAtom sg l.atom := by
  intro l hl
  obtain ⟨k, hk, rfl⟩ := List.mem_map.1 hl
  simp only [others, List.mem_map, List.mem_filter] at hk
  obtain ⟨x, ⟨hx, _⟩, rfl⟩ := hk
  exact (h x hx).subst (fun v _ => hθ v)

theorem resolveInf_wt {sg : Const → Role} {ev : Term → Option Term} (he : EvRole sg ev) {n : Nat} {xcl ycl : List ALit} {i j : Nat}
    (hx : Stored xcl) (hy : Stored ycl) (wx : WtA sg xcl) (wy : WtA sg ycl) {r : List Lit}
    (h : resolveInf ev n xcl i ycl j = .ok r) : WtCl sg 3 r := by
  simp only [resolveInf] at h
  split at h
  · rename_i x y ex ey
    have mx := List.mem_of_getElem? ex
    have my := List.mem_of_getElem? ey
    split at h
    · cases h
    · split at h
      · cases h
      · cases h
      · rename_i st eu
        obtain ⟨θ, hd, _, _⟩ := unify_den eu (hx.vars x mx) (hy.vars y my)
        have hθ := den_wt hd (unify_acyclic eu) (unify_atoms_wt (wx x mx) (wy y my) eu)
        obtain ⟨s, hr⟩ := Asm.inf_ok h
        refine collected_wt he (resolveLits_spec hd mx my hx.vars hy.vars hr) ?_
        intro l hl
        rw [List.map_append] at hl
        rcases List.mem_append.1 hl with hl | hl
        · exact others_wt wx hθ l hl
        · exact others_wt wy hθ l hl
  · cases h

theorem factorInf_wt {sg : Const → Role} {ev : Term → Option Term} (he : EvRole sg ev) {n : Nat} {xcl : List ALit} {i j : Nat}
    (hx : Stored xcl) (wx : WtA sg xcl) {r : List Lit} (h : factorInf ev n xcl i j = .ok r) : WtCl sg 3 r := by
  simp only [factorInf] at h
  split at h
  · split at h
    · rename_i x y ex ey
      have mx := List.mem_of_getElem? ex
      have my := List.mem_of_getElem? ey
      split at h
      · cases h
      · split at h
        · split at h
          · cases h
          · cases h
          · rename_i st eu
            obtain ⟨θ, hd, _, _⟩ := unify_den eu (hx.vars x mx) (hx.vars y my)
            have hθ := den_wt hd (unify_acyclic eu) (unify_atoms_wt (wx x mx) (wx y my) eu)
            obtain ⟨s, hr⟩ := Asm.inf_ok h
            exact collected_wt he (factorLits_spec hd mx hx.vars hr) (others_wt wx hθ)
        · cases h
    · cases h
  · cases h

theorem eqReflInf_wt {sg : Const → Role} {ev : Term → Option Term} (he : EvRole sg ev) {n : Nat} {xcl : List ALit} {i : Nat}
    (hx : Stored xcl) (wx : WtA sg xcl) {r : List Lit} (h : eqReflInf ev n xcl i = .ok r) : WtCl sg 3 r := by
  simp only [eqReflInf] at h
  split at h
  · rename_i x ex
    have mx := List.mem_of_getElem? ex
    split at h
    · cases h
    · split at h
      · cases h
      · rename_i a b ea
        obtain ⟨rest, hat⟩ := eqArgs_some ea
        split at h
        · cases h
        · cases h
        · rename_i st eu
          have hv := hx.vars x mx
          have hw := wx x mx
          rw [hat] at hv hw
          have hab := wtL_iff.1 hw.2.1
          obtain ⟨θ, hd, _, _⟩ := unify_den eu (fun w h => hv w (by simp [h])) (fun w h => hv w (by simp [h]))
          have hθ := den_wt hd (unify_acyclic eu)
            (Vals.unify wt_args _ _ _ _ _ _ vals_empty (hab a (by simp)) (hab b (by simp)) eu)
          obtain ⟨s, hr⟩ := Asm.inf_ok h
          exact collected_wt he (factorLits_spec hd mx hx.vars hr) (others_wt wx hθ)
  · cases h

theorem setAtom_wt {sg : Const → Role} {cl : List ALit} (h : WtA sg cl) {j : Nat} {neg : Bool} {a : Term} (ha : WtAtom sg a)
    {θ : Nat → Term} (hθ : ∀ v, WtT sg (θ v)) : ∀ l ∈ (setAtom cl j neg a).map (Lit.subst θ), WtAtom sg l.atom := by
  intro l hl
  obtain ⟨k, hk, rfl⟩ := List.mem_map.1 hl
  refine WtAtom.subst ?_ (fun v _ => hθ v)
  simp only [setAtom, List.mem_append, List.mem_map, List.mem_cons] at hk
  rcases hk with ⟨x, hx, rfl⟩ | rfl | ⟨x, hx, rfl⟩
  · exact h x (List.mem_of_mem_take hx)
  · exact ha
  · exact h x (List.mem_of_mem_drop hx)

theorem paraFromInf_wt {sg : Const → Role} {ev : Term → Option Term} (he : EvRole sg ev) {n : Nat} {xcl ycl : List ALit} {i j k : Nat}
    {left : Bool} (hx : Stored xcl) (hy : Stored ycl) (wx : WtA sg xcl) (wy : WtA sg ycl) {r : List Lit}
    (h : paraFromInf ev n xcl i left ycl j k = .ok r) : WtCl sg 3 r := by
  simp only [paraFromInf] at h
  split at h
  · rename_i x y ex ey
    have mx := List.mem_of_getElem? ex
    have my := List.mem_of_getElem? ey
    split at h
    · cases h
    · split at h
      · rename_i a b yt pos ea et
        obtain ⟨rest, hat⟩ := eqArgs_some ea
        obtain ⟨hj, _, hp, C, hC, rfl, hch⟩ := paraTargets_pos et
        split at h
        · cases h
        · cases h
        · rename_i st eu
          have hv := hx.vars x mx
          have hw := wx x mx
          rw [hat] at hv hw
          have hab := wtL_iff.1 hw.2.1
          have wa := hab a (by simp)
          have wb := hab b (by simp)
          have wc := wy y my
          rw [hC] at wc
          have wc := wtAtom_fill hch wc
          have hva : ∀ w ∈ vars a, w < 4000 := fun w h => hv w (by simp [h])
          have hvb : ∀ w ∈ vars b, w < 4000 := fun w h => hv w (by simp [h])
          have hvy : ∀ w ∈ vars yt, w < 4000 := fun w h => hy.vars y my w (by rw [hC]; exact vars_fill h)
          obtain ⟨θ, hd, _, _⟩ := unify_den eu (by cases left <;> assumption) hvy
          have hθ := den_wt hd (unify_acyclic eu)
            (Vals.unify wt_args _ _ _ _ _ _ vals_empty (by cases left <;> assumption) wc.1 eu)
          obtain ⟨s, hr⟩ := Asm.inf_ok h
          refine collected_wt he (paraLits_spec hd mx hx.vars hy.vars hj ey hC hp (by cases left <;> assumption) hr) ?_
          intro l hl
          rw [List.map_append] at hl
          rcases List.mem_append.1 hl with hl | hl
          · exact others_wt wx hθ l hl
          · exact setAtom_wt wy (wc.2 _ (by cases left <;> assumption)) hθ l hl
      · cases h
  · cases h

theorem paraIntoInf_wt {sg : Const → Role} {ev : Term → Option Term} (he : EvRole sg ev) {n : Nat} {xcl ycl : List ALit} {i j k : Nat}
    {left : Bool} (hi : i ≤ 255) (hx : Stored xcl) (hy : Stored ycl) (wx : WtA sg xcl) (wy : WtA sg ycl) {r : List Lit}
    (h : paraIntoInf ev n xcl i left ycl j k = .ok r) : WtCl sg 3 r := by
  simp only [paraIntoInf] at h
  split at h
  · rename_i x y ex ey
    have mx := List.mem_of_getElem? ex
    have my := List.mem_of_getElem? ey
    split at h
    · cases h
    · split at h
      · rename_i a b yt pos ea et
        obtain ⟨rest, hat⟩ := eqArgs_some ea
        obtain ⟨hj, _, hp, C, hC, rfl, hch⟩ := paraTargets_pos et
        split at h
        · cases h
        · cases h
        · rename_i st eu
          have hv := hx.vars x mx
          have hw := wx x mx
          rw [hat] at hv hw
          have hab := wtL_iff.1 hw.2.1
          have wa := hab a (by simp)
          have wb := hab b (by simp)
          have wc := wy y my
          rw [hC] at wc
          have wc := wtAtom_fill hch wc
          have hva : ∀ w ∈ vars a, w < 4000 := fun w h => hv w (by simp [h])
          have hvb : ∀ w ∈ vars b, w < 4000 := fun w h => hv w (by simp [h])
          have hvy : ∀ w ∈ vars yt, w < 4000 := fun w h => hy.vars y my w (by rw [hC]; exact vars_fill h)
          obtain ⟨θ, hd, _, _⟩ := unify_den eu hvy (by cases left <;> assumption)
          have hθ := den_wt hd (unify_acyclic eu)
            (Vals.unify wt_args _ _ _ _ _ _ vals_empty wc.1 (by cases left <;> assumption) eu)
          have e1 : decLitnr (encPath i (if left then 1 else 0)) = i := by
            rw [decLitnr_enc (by cases left <;> simp)]; exact Nat.mod_eq_of_lt (by omega)
          have e2 : decPos (encPath i (if left then 1 else 0)) = if left then 1 else 0 :=
            decPos_enc (by cases left <;> simp)
          rw [e1, e2, ex] at h
          simp only [hat] at h
          have e3 : (if (if left then 1 else 0) ≠ 0 then b else a) = (if left then b else a) := by
            cases left <;> simp
          rw [e3] at h
          obtain ⟨s, hr⟩ := Asm.inf_ok h
          refine collected_wt he (paraLits_spec hd mx hx.vars hy.vars hj ey hC hp (by cases left <;> assumption) hr) ?_
          intro l hl
          rw [List.map_append] at hl
          rcases List.mem_append.1 hl with hl | hl
          · exact others_wt wx hθ l hl
          · exact setAtom_wt wy (wc.2 _ (by cases left <;> assumption)) hθ l hl
      · cases h
  · cases h

/-! ### Rewriting -/

/-- the stored equations keep to the roles and have variables of the bank of active clauses -/
def WtEqs (sg : Const → Role) (eqs : List (Term × Term)) : Prop :=
  ∀ e ∈ eqs, (WtT sg e.1 ∧ WtT sg e.2) ∧ (∀ v ∈ vars e.1, InBank 2 v) ∧ ∀ v ∈ vars e.2, InBank 2 v

theorem few_bank {b : Nat} {l : List Nat} (h : ∀ v ∈ l, InBank b v) : Few l := by
  refine ⟨(List.range 1000).map (fun i => b * 1000 + i), by simp [vlCap], ?_⟩
  intro v hv
  obtain ⟨h1, h2⟩ := h v hv
  simp only [List.mem_map, List.mem_range]
  exact ⟨v - b * 1000, by omega, by omega⟩

theorem WtEqs.eqs {sg : Const → Role} {eqs : List (Term × Term)} (h : WtEqs sg eqs) : Eqs (InBank 2) eqs :=
  ⟨fun e he => ⟨few_bank (h e he).2.1, few_bank (h e he).2.2⟩, fun e he => (h e he).2⟩

theorem WtEqs.side {sg : Const → Role} {wd : Const → Int} {eqs : List (Term × Term)} {h : Term → Nat} (hw : WtEqs sg eqs)
    {key l r : Term} (hm : (l, r) ∈ bucketOf h (rulesOf wd eqs) key) : WtT sg l ∧ WtT sg r := by
  rcases (ruleOf_mem hm).2 with h1 | h1
  · exact (hw _ h1).1
  · exact ⟨(hw _ h1).1.2, (hw _ h1).1.1⟩

/-- a symbol that is not used as a constant is not rewritten -/
theorem rwConst_role {sg : Const → Role} {wd : Const → Int} {eqs : List (Term × Term)} {h : Term → Nat} (hw : WtEqs sg eqs)
    {f : Const} (hf : sg f ≠ .cnst) {n : Nat} {y : Term} {k : Nat}
    (e : rwConst (bucketOf h (rulesOf wd eqs)) n (.const f) = .ok y k) : y = .const f := by
  cases n with
  | zero => simp [rwConst] at e
  | succ n =>
    simp only [rwConst] at e
    split at e
    · cases e; rfl
    · rename_i b e1
      exact absurd (hw.side (findConst_spec e1)).1 hf

theorem wt_val {sg : Const → Role} {θ : Nat → Term} {v : Nat} : ∀ {t : Term}, WtT sg (Term.subst θ t) → v ∈ vars t → WtT sg (θ v) := by
  intro t
  induction t using Term.ind with
  | hv w => intro h hv; simp at hv; subst hv; simpa using h
  | hc c => intro _ hv; simp at hv
  | ha f as ih =>
    intro h hv
    rw [vars_app, mem_varsL] at hv
    obtain ⟨a, ha, hv⟩ := hv
    rw [subst_app] at h
    exact ih a ha (wtL_iff.1 h.2 _ (List.mem_map_of_mem ha)) hv

/-- rewriting of terms: roles, variables and values -/
theorem role_rel {I : Interp} {E : Type} {π : I.D → E} (hI : EqInterp I)
    (hπ : ∀ a b : I.D, I.tr (I.fn (.sym "=") [a, b]) ↔ π a = π b)
    (hc : ∀ f as bs, as.map π = bs.map π → I.fn f as = I.fn f bs) {sg : Const → Role}
    {wd : Const → Int} {eqs : List (Term × Term)} {ev : Term → Option Term}
    (h : Term → Nat) (ht : ∀ e ∈ eqs, EqTrue I e.1 e.2) (hw : WtEqs sg eqs) (hev : EvSound I ev) (he : EvRole sg ev) :
    RwRel ev (bucketOf h (rulesOf wd eqs)) (fun t => (∀ v ∈ vars t, ¬ InBank 2 v) ∧ WtT sg t)
      (fun x y => (∀ ρ : Nat → I.D, π (eval I ρ y) = π (eval I ρ x)) ∧ ∀ v ∈ vars y, v ∈ vars x) where
  refl x := ⟨fun ρ => rfl, fun v hv => hv⟩
  trans x y z h1 h2 := ⟨fun ρ => (h2.1 ρ).trans (h1.1 ρ), fun v hv => h1.2 v (h2.2 v hv)⟩
  gargs f as g a ha :=
    ⟨fun v hv => g.1 v (by rw [vars_app, mem_varsL]; exact ⟨a, ha, hv⟩), wt_args f as g.2 a ha⟩
  gapp f as as' g _ g' := by
    refine ⟨?_, g.2.1, wtL_iff.2 (fun a ha => (g' a ha).2)⟩
    intro v hv
    rw [vars_app, mem_varsL] at hv
    obtain ⟨a, ha, hv⟩ := hv
    exact (g' a ha).1 v hv
  app f as as' hq := by
    refine ⟨fun ρ => ?_, fun v hv => ?_⟩
    · simp only [eval, evalL_eq_map]
      have : (as'.map (eval I ρ)).map π = (as.map (eval I ρ)).map π := by
        simp only [List.map_map]
        exact All2.map_eq (g := π ∘ eval I ρ) (hq.imp (fun a _ b hb => hb.1 ρ))
      rw [hc f _ _ this]
    · rw [vars_app] at hv ⊢
      clear hc
      induction hq with
      | nil => exact hv
      | cons h _ ih =>
        simp only [varsL_cons, List.mem_append] at hv ⊢
        rcases hv with hv | hv
        · exact .inl (h.2 v hv)
        · exact .inr (ih hv)
  head f g as n k hg hcn := by
    have := rwConst_role hw (by rw [hg.2.1]; decide) hcn
    cases this
    exact ⟨hg, fun ρ => rfl, fun v hv => hv⟩
  ev t t' g e := ⟨⟨fun v hv => g.1 v (he.vars t t' e v hv), he.term t t' g.2 e⟩,
    fun ρ => by rw [hev t t' e ρ], he.vars t t' e⟩
  step key l r θ hm g := by
    have hgt := rule_gt hw.eqs hm
    refine ⟨⟨VarLe.noV (hgt.subst θ).1 g.1, ?_⟩, ?_, fun v hv => VarLe.mem (hgt.subst θ).1 hv⟩
    · exact (hw.side hm).2.subst (fun v hv => wt_val g.2 (VarLe.mem hgt.1 hv))
    · intro ρ
      rw [eval_subst, eval_subst]
      exact rule_true hI ht hπ hm _
  chain key l r x s hm hs' g := chain_of (rule_few hw.eqs hm).2.2 g.1 hs'

/-- rewriting of an atom that keeps to the roles: the result is a truth constant or an atom that
keeps to the roles, has no new variables and the same truth value -/
theorem rw_atom_role {I : Interp} (hI : EqInterp I) {sg : Const → Role}
    {wd : Const → Int} {eqs : List (Term × Term)} {ev : Term → Option Term}
    (h : Term → Nat) (ht : ∀ e ∈ eqs, EqTrue I e.1 e.2) (hw : WtEqs sg eqs) (hev : EvSound I ev) (he : EvRole sg ev)
    {x y : Term} {n k : Nat} (hx : WtAtom sg x) (hv : ∀ v ∈ vars x, ¬ InBank 2 v)
    (hr : rwBuild ev (bucketOf h (rulesOf wd eqs)) n x = .ok y k) :
    (∀ ρ : Nat → I.D, I.tr (eval I ρ y) ↔ I.tr (eval I ρ x)) ∧
    (y = .const aTrue ∨ y = .const aFalse ∨ WtAtom sg y) ∧ ∀ v ∈ vars y, v ∈ vars x := by
  obtain ⟨E, π, hπ, hc⟩ := id hI
  have rel := role_rel hI hπ hc h ht hw hev he (wd := wd)
  cases n with
  | zero => simp [rwBuild] at hr
  | succ n =>
    cases x with
    | var v => exact hx.elim
    | const c =>
      simp only [rwBuild] at hr
      have := rwConst_role hw (by rw [show sg c = .pred from hx]; decide) hr
      subst this
      exact ⟨fun ρ => Iff.rfl, .inr (.inr hx), fun v hv => hv⟩
    | app p as =>
      simp only [rwBuild] at hr
      obtain ⟨f', i, j, h1, h2, _⟩ := ROut.bind_ok hr
      obtain ⟨as', i2, j2, h3, h4, _⟩ := ROut.bind_ok h2
      have := rwConst_role hw (by rw [hx.1]; decide) h1
      subst this
      simp only at h4
      have hga : ∀ a ∈ as, (∀ v ∈ vars a, ¬ InBank 2 v) ∧ WtT sg a := fun a ha =>
        ⟨fun v hva => hv v (by rw [vars_app, mem_varsL]; exact ⟨a, ha, hva⟩), wtL_iff.1 hx.2.1 a ha⟩
      have hq : All2 (fun a b => WtT sg b ∧ (∀ ρ : Nat → I.D, π (eval I ρ b) = π (eval I ρ a)) ∧ ∀ v ∈ vars b, v ∈ vars a) as as' :=
        (mapR_ok h3).imp (fun a ha b ⟨j, hb⟩ => by
          have := (rw_rel rel n).1 _ _ _ hb (hga a ha)
          exact ⟨this.1.2, this.2⟩)
      have e0 : ∀ ρ : Nat → I.D, eval I ρ (.app p as') = eval I ρ (.app p as) := by
        intro ρ
        simp only [eval, evalL_eq_map]
        refine hc p _ _ ?_
        simp only [List.map_map]
        exact All2.map_eq (g := π ∘ eval I ρ) (hq.imp (fun a _ b hb => hb.2.1 ρ))
      have e1 : ∀ v ∈ varsL as', v ∈ varsL as := by
        intro v hv
        clear hc h4 h3 e0 hga hx hr h2
        induction hq with
        | nil => exact hv
        | cons h _ ih =>
          simp only [varsL_cons, List.mem_append] at hv ⊢
          rcases hv with hv | hv
          · exact .inl (h.2.2 v hv)
          · exact .inr (ih (fun w hw => ‹∀ v ∈ vars _, ¬ InBank 2 v› w (by simp at hw ⊢; exact .inr hw)) hv)
      have e2 : WtAtom sg (.app p as') := by
        refine ⟨hx.1, ?_, fun hp => by rw [← hq.length]; exact hx.2.2 hp⟩
        clear hc h4 h3 e0 hga hx hr h2 e1
        induction hq with
        | nil => trivial
        | cons h _ ih =>
          exact ⟨h.1, ih (fun w hw => ‹∀ v ∈ vars _, ¬ InBank 2 v› w (by simp at hw ⊢; exact .inr hw))⟩
      split at h4
      · cases h4
      · rename_i r er
        have hrv : ∀ v ∈ vars r, v ∈ vars (Term.app p as) := by
          intro v hv
          have := he.vars _ _ er v hv
          rw [vars_app] at this ⊢
          exact e1 v this
        have hre : ∀ ρ : Nat → I.D, I.tr (eval I ρ r) ↔ I.tr (eval I ρ (.app p as)) := by
          intro ρ; rw [← e0, ← hev _ _ er ρ]
        split at h4
        · rename_i hb
          cases h4
          simp only [Bool.or_eq_true, Term.beq_iff] at hb
          exact ⟨hre, by tauto, hrv⟩
        · rename_i hb
          rcases he.atom p as' r e2 er with rfl | rfl | ⟨bs, rfl, hbs⟩
          · simp [Term.beq] at hb
          · simp [Term.beq] at hb
          · cases n with
            | zero => simp [rwTerm] at h4
            | succ n =>
              simp only [rwTerm] at h4
              split at h4
              · cases h4; exact ⟨hre, .inr (.inr hbs), hrv⟩
              · cases h4
              · rename_i r s e
                obtain ⟨l, hm, hsm⟩ := findRule_spec e
                have hl := (matchT_sound l St.empty _ s hsm).2.1
                have hlw := (hw.side hm).1
                cases l with
                | var v =>
                  obtain ⟨_, h5 | ⟨_, h5⟩⟩ := rule_gt hw.eqs hm
                  · have := size_pos r; simp at h5; omega
                  · cases r <;> simp [lexOrder] at h5
                    split at h5 <;> simp at h5
                | const c => simp at hl
                | app f ls =>
                  simp only [subst_app, Term.app.injEq] at hl
                  have h6 := hlw.1
                  rw [hl.1, hbs.1] at h6
                  cases h6

end Gkc.Props
