import Verif.Props.ClausalRoles
import Verif.Props.Negpush
import Verif.Props.Saturate
/-
C40: a proof that is found means that the conjecture follows from the axioms.
-/
namespace Gkc.Props
open Gkc Gkc.Clausify
open Gkc.Term (vars varsL)

/-! ### Truth of formulas (specification) -/

/-- a structure over a given domain -/
structure Str (D : Type) where
  cst : Const → D
  fn : Const → List D → D
  pr : Const → List D → Prop

/-- the structure without its domain -/
def _root_.Gkc.FO.str (M : FO) : Str M.D := ⟨M.cst, M.fn, M.pr⟩

section
variable {D : Type}

/-- names with arguments and propositional symbols mean what their symbols mean -/
def Str.fint (S : Str D) : FInt D := ⟨fun n => S.fn (funSym n), fun n => S.pr (symbolOf n)⟩

/-- the assignment gives the constants their values -/
def Str.Val (S : Str D) (c : VarCfg) (τ : Nm → D) : Prop := ∀ n, isVar c n = false → τ n = S.cst (symbolOf n)

/-- a formula is true in a structure: for all values of its free variables -/
def Sat (c : VarCfg) (S : Str D) (f : Frm) : Prop := ∀ τ, S.Val c τ → S.fint.holds τ f

/-- `$true` and `$false` mean what they say -/
def Str.Truth (S : Str D) : Prop := S.pr (.sym "$true") [] ∧ ¬ S.pr (.sym "$false") []
end

/-- What is assumed about a formula of a problem: connectives have two arguments, quantified names
are variables, a variable has no other name (type) with the same string beside it, and every symbol is
used in one role. -/
structure Adm (c : VarCfg) (sg : Const → SRole) (f : Frm) : Prop where
  two : TwoArg f
  bound : ∀ n, boundIn n f → isVar c n = true
  names : ∀ n m, nameIn n f → nameIn m f → okVar n = true → (okVar m = true ∨ isVar c n = true) → m.str = n.str → m = n
  wt : WtF c sg f

/-! ### Closing -/

mutual
theorem atom_name {n : Nm} {t : FT} (hn : n ∈ namesT t) : ∀ f, atomIn t f → nameIn n f
  | .at u, h => by cases h; exact .inl hn
  | .neg f, h => atom_name hn f h
  | .par f, h => atom_name hn f h
  | .and fs, h => atom_nameL hn fs h
  | .or fs, h => atom_nameL hn fs h
  | .imp fs, h => atom_nameL hn fs h
  | .eqv a b, h => h.elim (fun h => (atom_name hn a h).imp .inl .inl) (fun h => (atom_name hn b h).imp .inr .inr)
  | .all vs f, h => by
    by_cases hv : n ∈ vs
    · exact .inr (.inl hv)
    · exact (atom_name hn f h).imp (fun h => ⟨hv, h⟩) .inr
  | .ex vs f, h => by
    by_cases hv : n ∈ vs
    · exact .inr (.inl hv)
    · exact (atom_name hn f h).imp (fun h => ⟨hv, h⟩) .inr
theorem atom_nameL {n : Nm} {t : FT} (hn : n ∈ namesT t) : ∀ fs, atomInL t fs → freeInL n fs ∨ boundInL n fs
  | [], h => h.elim
  | f :: fs, h => h.elim (fun h => (atom_name hn f h).imp .inl .inl) (fun h => (atom_nameL hn fs h).imp .inr .inr)
end

mutual
theorem freeT_sub {c : VarCfg} {vs : List Nm} {n : Nm} : ∀ t, n ∈ freeT c vs t → isVar c n = true ∧ n ∈ namesT t
  | .nm m, h => by
    simp only [freeT] at h
    split at h
    · rename_i hc
      simp only [List.mem_singleton] at h
      subst h
      simp only [Bool.and_eq_true] at hc
      exact ⟨hc.1, by simp [namesT]⟩
    · cases h
  | .app f as, h => by
    have := (freeTL_sub as [] h).resolve_left (by simp)
    exact ⟨this.1, by simp [namesT, this.2]⟩
theorem freeTL_sub {c : VarCfg} {vs : List Nm} {n : Nm} : ∀ ts acc, n ∈ freeTL c vs acc ts →
    n ∈ acc ∨ isVar c n = true ∧ n ∈ namesTL ts
  | [], acc, h => .inl h
  | a :: as, acc, h => by
    rcases freeTL_sub as _ h with h | h
    · rcases addOccs_sub h with h | h
      · exact .inl h
      · have := freeT_sub a h
        exact .inr ⟨this.1, by simp [namesTL, this.2]⟩
    · exact .inr ⟨h.1, by simp [namesTL, h.2]⟩
end

mutual
theorem freeF_sub {c : VarCfg} {n : Nm} : ∀ f vs, n ∈ freeF c vs f → isVar c n = true ∧ ∃ t, atomIn t f ∧ n ∈ namesT t
  | .at t, vs, h => (freeT_sub t h).imp id (fun h => ⟨t, rfl, h⟩)
  | .neg f, vs, h => freeF_sub f vs h
  | .par f, vs, h => freeF_sub f vs h
  | .all us f, vs, h => freeF_sub f _ h
  | .ex us f, vs, h => freeF_sub f _ h
  | .eqv a b, vs, h => (addOccs_sub h).elim
      (fun h => (freeF_sub a vs h).imp id (fun h => h.imp fun _ h => ⟨.inl h.1, h.2⟩))
      (fun h => (freeF_sub b vs h).imp id (fun h => h.imp fun _ h => ⟨.inr h.1, h.2⟩))
  | .and fs, vs, h => (freeL_sub fs vs [] h).resolve_left (by simp)
  | .or fs, vs, h => (freeL_sub fs vs [] h).resolve_left (by simp)
  | .imp fs, vs, h => (freeL_sub fs vs [] h).resolve_left (by simp)
theorem freeL_sub {c : VarCfg} {n : Nm} : ∀ fs vs acc, n ∈ freeL c vs acc fs →
    n ∈ acc ∨ isVar c n = true ∧ ∃ t, atomInL t fs ∧ n ∈ namesT t
  | [], vs, acc, h => .inl h
  | f :: fs, vs, acc, h => (freeL_sub fs vs _ h).elim
      (fun h => (addOccs_sub h).imp id (fun h => (freeF_sub f vs h).imp id (fun h => h.imp fun _ h => ⟨.inl h.1, h.2⟩)))
      (fun h => .inr (h.imp id (fun h => h.imp fun _ h => ⟨.inr h.1, h.2⟩)))
end

/-- strings are kept when lists are joined -/
theorem addOccs_str {vs us : List Nm} {s : String} (h : (∃ m ∈ vs, m.str = s) ∨ ∃ m ∈ us, m.str = s) :
    ∃ m ∈ addOccs vs us, m.str = s := by
  rcases h with ⟨m, hm, rfl⟩ | ⟨m, hm, rfl⟩
  · exact addOccs_has (.inl hm)
  · exact addOccs_has (.inr hm)

mutual
theorem freeT_has {c : VarCfg} {vs : List Nm} {n : Nm} (hv : isVar c n = true) (hn : inVars vs n = false) :
    ∀ t, n ∈ argsT t → ∃ m ∈ freeT c vs t, m.str = n.str
  | .nm m, h => by
    simp only [argsT, List.mem_singleton] at h
    subst h
    exact ⟨n, by simp [freeT, hv, hn], rfl⟩
  | .app f as, h => freeTL_has hv hn as [] (.inr h)
theorem freeTL_has {c : VarCfg} {vs : List Nm} {n : Nm} (hv : isVar c n = true) (hn : inVars vs n = false) :
    ∀ ts acc, ((∃ m ∈ acc, m.str = n.str) ∨ n ∈ argsTL ts) → ∃ m ∈ freeTL c vs acc ts, m.str = n.str
  | [], acc, h => h.resolve_right (by simp [argsTL])
  | a :: as, acc, h => by
    refine freeTL_has hv hn as _ ?_
    simp only [argsTL, List.mem_append] at h
    rcases h with h | h | h
    · exact .inl (addOccs_str (.inl h))
    · exact .inl (addOccs_str (.inr (freeT_has hv hn a h)))
    · exact .inr h
end

mutual
theorem names_split {n : Nm} : ∀ t, n ∈ namesT t → n ∈ argsT t ∨ n ∈ headsT t
  | .nm m, h => .inl h
  | .app f as, h => by
    simp only [namesT, List.mem_cons] at h
    rcases h with rfl | h
    · exact .inr (by simp [headsT])
    · exact (namesL_split as h).imp id (fun h => by simp [headsT, h])
theorem namesL_split {n : Nm} : ∀ ts, n ∈ namesTL ts → n ∈ argsTL ts ∨ n ∈ headsTL ts
  | [], h => by simp [namesTL] at h
  | a :: as, h => by
    simp only [namesTL, List.mem_append] at h
    rcases h with h | h
    · exact (names_split a h).imp (fun h => by simp [argsTL, h]) (fun h => by simp [headsTL, h])
    · exact (namesL_split as h).imp (fun h => by simp [argsTL, h]) (fun h => by simp [headsTL, h])
end

theorem not_inVars {vs : List Nm} {n : Nm} (h : ∀ v ∈ vs, v.str ≠ n.str) : inVars vs n = false := by
  cases e : inVars vs n with
  | false => rfl
  | true =>
    obtain ⟨v, hv, he⟩ := inVars_has.1 e
    exact absurd he (h v hv)

mutual
theorem freeF_has {c : VarCfg} {n : Nm} (hv : isVar c n = true) : ∀ (f : Frm) (vs : List Nm), (∀ v ∈ vs, v.str ≠ n.str) →
    (∀ v, boundIn v f → v.str = n.str → v = n) → ¬ headIn n f → freeIn n f → ∃ m ∈ freeF c vs f, m.str = n.str
  | .at t, vs, hs, _, hh, h => by
    cases t with
    | nm p =>
      simp only [freeIn, namesT, List.mem_singleton] at h
      exact absurd (by simp [headIn, headsA, h]) hh
    | app p as =>
      simp only [freeIn] at h
      rcases names_split _ h with h | h
      · exact freeT_has hv (not_inVars hs) _ h
      · exact absurd (by simpa [headIn, headsA, headsT] using h) hh
  | .neg f, vs, hs, hb, hh, h => freeF_has hv f vs hs hb hh h
  | .par f, vs, hs, hb, hh, h => freeF_has hv f vs hs hb hh h
  | .all us f, vs, _, hb, hh, h => freeF_has hv f (varsSubset us vs)
      (fun v hm e => h.1 (hb v (.inl (varsSubset_sub hm)) e ▸ varsSubset_sub hm)) (fun v hm => hb v (.inr hm)) hh h.2
  | .ex us f, vs, _, hb, hh, h => freeF_has hv f (varsSubset us vs)
      (fun v hm e => h.1 (hb v (.inl (varsSubset_sub hm)) e ▸ varsSubset_sub hm)) (fun v hm => hb v (.inr hm)) hh h.2
  | .eqv a b, vs, hs, hb, hh, h => addOccs_str (h.imp
      (freeF_has hv a vs hs (fun v hm => hb v (.inl hm)) (fun h => hh (.inl h)))
      (freeF_has hv b vs hs (fun v hm => hb v (.inr hm)) (fun h => hh (.inr h))))
  | .and fs, vs, hs, hb, hh, h => freeL_has hv fs vs [] hs hb hh (.inr h)
  | .or fs, vs, hs, hb, hh, h => freeL_has hv fs vs [] hs hb hh (.inr h)
  | .imp fs, vs, hs, hb, hh, h => freeL_has hv fs vs [] hs hb hh (.inr h)
theorem freeL_has {c : VarCfg} {n : Nm} (hv : isVar c n = true) : ∀ (fs : List Frm) (vs acc : List Nm), (∀ v ∈ vs, v.str ≠ n.str) →
    (∀ v, boundInL v fs → v.str = n.str → v = n) → ¬ headInL n fs → ((∃ m ∈ acc, m.str = n.str) ∨ freeInL n fs) →
    ∃ m ∈ freeL c vs acc fs, m.str = n.str
  | [], vs, acc, _, _, _, h => h.resolve_right id
  | f :: fs, vs, acc, hs, hb, hh, h => by
    refine freeL_has hv fs vs _ hs (fun v hm => hb v (.inr hm)) (fun h => hh (.inr h)) ?_
    rcases h with h | h | h
    · exact .inl (addOccs_str (.inl h))
    · exact .inl (addOccs_str (.inr (freeF_has hv f vs hs (fun v hm => hb v (.inl hm)) (fun h => hh (.inl h)) h)))
    · exact .inr h
end

theorem freeF_names {c : VarCfg} {f : Frm} {vs : List Nm} {n : Nm} (h : n ∈ freeF c vs f) : isVar c n = true ∧ nameIn n f := by
  obtain ⟨hv, t, ht, hn⟩ := freeF_sub f vs h
  exact ⟨hv, atom_name hn f ht⟩

/-- the closed formula is of the same kind and has no free variables -/
theorem Adm.close {c : VarCfg} {sg : Const → SRole} {f : Frm} (h : Adm c sg f) :
    Adm c sg (close c f) ∧ ∀ n, freeIn n (Clausify.close c f) → isVar c n = false := by
  have key : ∀ n, freeIn n f → isVar c n = true → n ∈ freeF c [] f := by
    intro n hn hv
    have hok := isVar_okVar hv
    obtain ⟨m, hm, e⟩ := freeF_has hv f [] (by simp) (fun v hb e => h.names n v (.inl hn) (.inr hb) hok (.inr hv) e)
      (fun hh => by have := (h.wt.head hh).2; rw [hv] at this; cases this) hn
    have hm' := freeF_names hm
    have := h.names n m (.inl hn) hm'.2 hok (.inr hv) e
    rwa [← this]
  unfold Clausify.close
  split
  · rename_i he
    refine ⟨h, fun n hn => ?_⟩
    cases e : isVar c n with
    | false => rfl
    | true =>
      have := key n hn e
      rw [List.isEmpty_iff.1 he] at this
      cases this
  · have hb : ∀ n, boundIn n (.all (freeF c [] f) f) → isVar c n = true ∧ nameIn n f := fun n hn => hn.elim
      (fun hn => freeF_names hn) (fun hn => ⟨h.bound n hn, .inr hn⟩)
    have hn' : ∀ n, nameIn n (.all (freeF c [] f) f) → nameIn n f := fun n hn => hn.elim (fun hn => .inl hn.2) (fun hn => (hb n hn).2)
    refine ⟨⟨.all _ h.two, fun n hn => (hb n hn).1, fun n m hn hm => h.names n m (hn' n hn) (hn' m hm), h.wt⟩, fun n hn => ?_⟩
    cases e : isVar c n with
    | false => rfl
    | true => exact absurd (key n hn.2 e) hn.1

/-- in negation normal form and closed -/
structure Adm2 (c : VarCfg) (sg : Const → SRole) (f : Frm) : Prop where
  nnf : Nnf2 f
  bound : ∀ n, boundIn n f → isVar c n = true
  names : ∀ n m, nameIn n f → nameIn m f → okVar n = true → (okVar m = true ∨ isVar c n = true) → m.str = n.str → m = n
  wt : WtF c sg f
  closed : ∀ n, freeIn n f → isVar c n = false

theorem Adm.negpush {c : VarCfg} {sg : Const → SRole} {f g : Frm} (h : Adm c sg f) (hc : ∀ n, freeIn n f → isVar c n = false)
    (e : negpush true f = some g) : Adm2 c sg g := by
  have o := negpush_two h.two true g e
  have hn : ∀ n, nameIn n g → nameIn n f := fun n h => h.imp (o.free n) (o.bound n)
  exact ⟨o.nnf, fun n hb => h.bound n (o.bound n hb), fun n m a b => h.names n m (hn n a) (hn m b),
    fun t ht => h.wt t (negpush_atoms _ f g e ht), fun n hf => hc n (o.free n hf)⟩

theorem Adm2.mini {c : VarCfg} {sg : Const → SRole} {f g : Frm} (h : Adm2 c sg f) (e : mini f = some g) :
    Adm2 c sg g ∧ ∀ {D : Type} (I : FInt D) (ρ : Nm → D), I.holds ρ g ↔ I.holds ρ f := by
  obtain ⟨ma, mb⟩ := mini_parts h.nnf g e
  have hb : ∀ n, boundIn n g → boundIn n f := by
    intro n hn
    obtain ⟨v, hv, es⟩ := mb n hn
    have vv := h.bound v hv
    have := h.names v n (.inr hv) (mini_name h.nnf g e n (.inr hn)) (isVar_okVar vv) (.inr vv) es.symm
    rwa [this]
  have ok := mini_correct h.nnf ⟨fun n hn => isVar_okVar (h.bound n hn), fun n m a b c d e => (h.names n m a b c (.inl d) e.symm).symm⟩ e
    (fun n hn => isVar_okVar (h.bound n (hb n hn)))
  have hn := mini_name h.nnf g e
  refine ⟨⟨ok.nnf, fun n a => h.bound n (hb n a), fun n m a b => h.names n m (hn n a) (hn m b), fun t ht => h.wt t (ma t ht), fun n a => ?_⟩, ok.sem⟩
  exact (ok.le.free n a).elim (h.closed n) (fun a => (h.wt.head a).2)

/-! ### Structures that differ on new symbols -/

section
variable {D : Type}

/-- the structures agree except on the symbols with a string in `N` -/
def Off (N : String → Prop) (S S' : Str D) : Prop :=
  ∀ k, (∀ s, N s → k ≠ .sym s) → S'.cst k = S.cst k ∧ S'.fn k = S.fn k ∧ S'.pr k = S.pr k

theorem Off.refl (N : String → Prop) (S : Str D) : Off N S S := fun _ _ => ⟨rfl, rfl, rfl⟩

theorem Off.trans {sn nr sn' nr' : Nat} (h1 : sn ≤ sn') (h2 : nr ≤ nr') {A B C : Str D} (h : Off (New sn nr) A B)
    (h' : Off (New sn' nr') B C) : Off (New sn nr) A C := fun k hk => by
  obtain ⟨a1, a2, a3⟩ := h k hk
  obtain ⟨b1, b2, b3⟩ := h' k (fun s hs => hk s (hs.mono h1 h2))
  exact ⟨b1.trans a1, b2.trans a2, b3.trans a3⟩

theorem Off.mono {sn nr sn' nr' : Nat} (h1 : sn ≤ sn') (h2 : nr ≤ nr') {A B : Str D} (h : Off (New sn' nr') A B) :
    Off (New sn nr) A B := fun k hk => h k (fun s hs => hk s (hs.mono h1 h2))

/-- names that occur stand for no new symbol -/
theorem WtF.offA {c : VarCfg} {sn nr : Nat} {sg : Const → SRole} {f : Frm} (hf : Fresh sn nr sg) (h : WtF c sg f) {n : Nm}
    {t : FT} (ht : atomIn t f) (hn : n ∈ namesT t) (hv : isVar c n = false) : OkName n ∧ ∀ s, New sn nr s →
      symbolOf n ≠ .sym s ∧ funSym n ≠ .sym s ∧ n ≠ uri s := by
  have h' : WtF c sg (.at t) := fun u hu => by cases hu; exact h t ht
  exact h'.off hf hn hv

theorem Sat.off {c : VarCfg} {sn nr : Nat} {sg : Const → SRole} {f : Frm} (hf : Fresh sn nr sg) (w : WtF c sg f) {S S' : Str D}
    (ho : Off (New sn nr) S S') (h : Sat c S f) : Sat c S' f := by
  intro τ hτ
  have := h (fun n => if isVar c n then τ n else S.cst (symbolOf n)) (fun n hn => by simp [hn])
  refine (holds_congr f (fun n hn => ?_) (fun n hn => ?_)).1 this
  · show (if isVar c n then τ n else S.cst (symbolOf n)) = τ n
    cases e : isVar c n with
    | true => simp
    | false =>
      simp only [Bool.false_eq_true, if_false]
      rw [hτ n e, (ho _ (fun s hs => ((w.off hf hn e).2 s hs).1)).1]
  · obtain ⟨t, h1, h2⟩ := head_atom f hn
    have o := w.offA hf h1 (headsA_sub h2) (w.head hn).2
    exact ⟨(ho _ (fun s hs => (o.2 s hs).2.1)).2.1.symm, (ho _ (fun s hs => (o.2 s hs).1)).2.2.symm⟩

open Classical in
/-- the new symbols as in `J` and `σ` -/
noncomputable def Str.upd (S : Str D) (N : String → Prop) (J : FInt D) (σ : Nm → D) : Str D where
  cst k := match k with
    | .sym s => if N s then σ (uri s) else S.cst (.sym s)
    | k => S.cst k
  fn k := match k with
    | .sym s => if N s then J.fn (uri s) else S.fn (.sym s)
    | k => S.fn k
  pr k := match k with
    | .sym s => if N s then J.pr (uri s) else S.pr (.sym s)
    | k => S.pr k

theorem Str.upd_off (S : Str D) (N : String → Prop) (J : FInt D) (σ : Nm → D) : Off N S (S.upd N J σ) := by
  intro k hk
  unfold Str.upd
  cases k with
  | sym s =>
    have : ¬ N s := fun h => hk s h rfl
    simp [this]
  | _ => simp

theorem Str.upd_at {S : Str D} {N : String → Prop} {J : FInt D} {σ : Nm → D} {s : String} (h : N s) :
    (S.upd N J σ).cst (.sym s) = σ (uri s) ∧ (S.upd N J σ).fn (.sym s) = J.fn (uri s) ∧
    (S.upd N J σ).pr (.sym s) = J.pr (uri s) := by
  simp [Str.upd, h]

/-- for the names of a problem the changed structure is the interpretation `J` with `σ` -/
theorem Str.upd_name {S : Str D} {sn nr : Nat} {J : FInt D} {σ : Nm → D}
    (hJ : ∀ n, (∀ s, New sn nr s → n ≠ uri s) → J.fn n = S.fn (funSym n) ∧ J.pr n = S.pr (symbolOf n) ∧ σ n = S.cst (symbolOf n))
    {n : Nm} (ok : OkName n) : (S.upd (New sn nr) J σ).cst (symbolOf n) = σ n ∧
      (S.upd (New sn nr) J σ).fint.fn n = J.fn n ∧ (S.upd (New sn nr) J σ).fint.pr n = J.pr n := by
  by_cases h : ∃ s, New sn nr s ∧ n = uri s
  · obtain ⟨s, hs, rfl⟩ := h
    have := Str.upd_at (S := S) (J := J) (σ := σ) hs
    simp only [Str.fint, symbolOf_uri, funSym_new hs]
    exact this
  · have hn : ∀ s, New sn nr s → n ≠ uri s := fun s hs e => h ⟨s, hs, e⟩
    obtain ⟨a, b, d⟩ := hJ n hn
    obtain ⟨a1, a2, a3⟩ := S.upd_off (New sn nr) J σ (symbolOf n) (fun s hs e => hn s hs ((symbolOf_new hs ok).1 e))
    obtain ⟨b1, b2, b3⟩ := S.upd_off (New sn nr) J σ (funSym n) (fun s hs e => hn s hs ((symbolOf_new hs ok).2 e))
    exact ⟨a1.trans d.symm, b2.trans a.symm, a3.trans b.symm⟩
end

/-! ### The steps of the clausifier -/

theorem sat_close {c : VarCfg} {f : Frm} {D : Type} {S : Str D} (h : Sat c S f) : Sat c S (close c f) := by
  unfold close
  split
  · exact h
  · intro τ hτ
    show ∀ τ', _ → _
    intro τ' hv
    refine h τ' (fun n hn => ?_)
    rw [hv n (fun hm => ?_)]
    · exact hτ n hn
    · have := (freeF_names hm).1
      rw [hn] at this
      cases this

theorem sat_of_close {c : VarCfg} {f : Frm} {D : Type} {S : Str D} (h : Sat c S (close c f)) : Sat c S f := by
  unfold close at h
  split at h
  · exact h
  · exact fun τ hτ => h τ hτ τ (fun _ _ => rfl)

/-- variables with the same string are the same -/
def VUniq (c : VarCfg) (f : Frm) : Prop :=
  ∀ n m, freeIn n f → freeIn m f → isVar c n = true → isVar c m = true → n.str = m.str → n = m

/-- what clausification does -/
def ClRes (c : VarCfg) (sg : Const → SRole) (sn nr : Nat) (f g : Frm) (sn' nr' : Nat) : Prop :=
  ∃ sg', sn ≤ sn' ∧ nr ≤ nr' ∧ Ext sn nr sg sg' ∧ Fresh sn' nr' sg' ∧ Cnf g ∧ WtF c sg' g ∧ VUniq c g ∧
    (∀ {D : Type} (S : Str D), Sat c S g → Sat c S f) ∧
    ∀ {D : Type} (S : Str D), Sat c S f → ∃ S', Off (New sn nr) S S' ∧ Sat c S' g

theorem steps_ok {c : VarCfg} {strat : Bool} {fuel sn nr sn' nr' : Nat} {f g : Frm} {sg : Const → SRole}
    (hF : Fresh sn nr sg) (ha : Adm c sg f) (hcl : ∀ n, freeIn n f → isVar c n = false)
    (h : clausifySteps strat fuel sn nr f = some (g, sn', nr')) : ClRes c sg sn nr f g sn' nr' := by
  unfold clausifySteps at h
  obtain ⟨f1, e1, h⟩ := Option.bind_eq_some_iff.1 h
  obtain ⟨f2, e2, h⟩ := Option.bind_eq_some_iff.1 h
  obtain ⟨⟨f3, vn3, sn3⟩, e3, h⟩ := Option.bind_eq_some_iff.1 h
  obtain ⟨⟨g4, s4⟩, e4, h⟩ := Option.map_eq_some_iff.1 h
  simp only [Prod.mk.injEq] at h
  obtain ⟨rfl, rfl, rfl⟩ := h
  have a1 := ha.negpush hcl e1
  obtain ⟨a2, sem2⟩ := a1.mini e2
  -- Skolemisation
  have si : SkInput sn f2 := by
    refine ⟨fun n hn ht => ?_, fun n hn hb => ?_, fun n k hn hk e => ?_⟩
    · have := a2.closed n hn
      rw [isVar_14 c ht] at this
      cases this
    · have := (a2.wt.head hn).2
      rw [a2.bound n hb] at this
      cases this
    · subst e
      rcases hn with hn | hn
      · exact ((a2.wt.off hF hn (isVar_skName c k)).2 (skName k).str (.inl ⟨k, hk, rfl⟩)).2.2 rfl
      · have := a2.bound _ hn
        rw [isVar_skName] at this
        cases this
  obtain ⟨sg3, l3, x3, F3, w3⟩ := skol_wt a2.nnf [] 0 sn f3 vn3 sn3 sg si.fok (fun n t e => by simp [look_nil] at e) hF a2.wt e3
  obtain ⟨q3, _, bk3, fo3⟩ := C28_skolem_equisatisfiable_partial a2.nnf si e3
  have n3 : ∀ n, freeIn n f3 → n.ty ≠ 14 → isVar c n = false := by
    intro n hn ht
    rcases C28_skolem_names a2.nnf si e3 hn with h | ⟨k, rfl, _⟩ | ⟨k, rfl, _⟩
    · exact a2.closed n h.1
    · exact absurd rfl ht
    · exact isVar_skName c k
  -- distribution
  obtain ⟨sg4, l4, x4, F4, w4, d4⟩ := dist_wt c sn3 strat fuel false f3 ⟨none, nr⟩ g4 s4 sg3 F3 w3 (fun d e => by cases e) e4
  have fr : ∀ n k, freeIn n f3 → nr < k → n ≠ dfName k := by
    intro n k hn hk e
    subst e
    exact ((w3.off F3 hn (isVar_dfName c k)).2 (dfName k).str (.inr ⟨k, hk, rfl⟩)).2.2 rfl
  obtain ⟨c4, _, nm4, bk4, fo4⟩ := C29_distribute_equisatisfiable_partial q3 fr e4
  have w5 : WtF c sg4 (withDefs g4 s4) := by
    unfold withDefs
    cases e : s4.defs with
    | none => exact w4
    | some d => exact WtF.and2.2 ⟨w4, d4 d e⟩
  have n5 : ∀ n, freeIn n (withDefs g4 s4) → isVar c n = true → n.ty = 14 := by
    intro n hn hv
    rcases nm4 n hn with h | ⟨k, ⟨_, _, rfl⟩ | ⟨_, rfl⟩⟩
    · refine Decidable.byContradiction fun ht => ?_
      rw [n3 n h ht] at hv
      cases hv
    · rw [isVar_dfName] at hv; cases hv
    · rw [isVar_dfName] at hv; cases hv
  refine ⟨sg4, l3, l4, x3.trans l3 (Nat.le_refl _) x4, F4, c4, w5, ?_, ?_, fun {D} S hS => ?_⟩
  · intro n m hn hm vn vm e
    have a := n5 n hn vn
    have b := n5 m hm vm
    cases n; cases m
    simp_all
  · intro D S hS τ hτ
    have s3 := bk4 S.fint (fun n => S.cst (symbolOf n)) (fun τ' h' => hS τ' (fun n hn => h' n (fun ht => by
      rw [isVar_14 c ht] at hn; cases hn)))
    have s2 := (sem2 _ _).1 (bk3 S.fint _ (fun τ' h' => s3 τ' h'))
    have s1 : S.fint.holds (fun n => S.cst (symbolOf n)) f := (C26_negpush_equivalent _ _ true f f1 e1).2.1 s2
    exact (holds_congr f (fun n hn => (hτ n (hcl n hn)).symm) (fun n _ => ⟨rfl, rfl⟩)).1 s1
  -- a structure for the Skolem functions
  have base : S.fint.holds (fun n => S.cst (symbolOf n)) f2 :=
    (sem2 _ _).2 ((C26_negpush_equivalent _ _ true f f1 e1).2.2 (hS _ (fun n _ => rfl)))
  obtain ⟨J, σ, hJ, hg3⟩ := fo3 S.fint (fun n => S.cst (symbolOf n)) base
  have upJ : ∀ n, (∀ s, New sn nr s → n ≠ uri s) → J.fn n = S.fn (funSym n) ∧ J.pr n = S.pr (symbolOf n) ∧ σ n = S.cst (symbolOf n) :=
    fun n hn => hJ n (fun k hk _ e => hn (skName k).str (.inl ⟨k, hk, rfl⟩) e)
  have S3 : Sat c (S.upd (New sn nr) J σ) f3 := by
    intro τ hτ
    have := hg3 (fun n => if n.ty = 14 then τ n else σ n) (fun n hn => by simp [hn])
    refine (holds_congr f3 (fun n hn => ?_) (fun n hn => ?_)).1 this
    · show (if n.ty = 14 then τ n else σ n) = τ n
      by_cases ht : n.ty = 14
      · simp [ht]
      · have nv := n3 n hn ht
        obtain ⟨t, h1, h2⟩ := free_atom f3 hn
        have ok : OkName n := ((wtFA_names t (w3 t h1) h2).resolve_left (by simp [nv])).1
        simp only [ht, if_false]
        rw [hτ n nv, (Str.upd_name upJ ok).1]
    · have := Str.upd_name upJ (w3.head hn).1
      exact ⟨this.2.1.symm, this.2.2.symm⟩
  -- a structure for the new predicates
  generalize S.upd (New sn nr) J σ = S1, S.upd_off (New sn nr) J σ = o1 at S3
  obtain ⟨P, hP, hg5⟩ := fo4 S1.fint (fun n => S1.cst (symbolOf n)) (fun τ hτ => S3 τ (fun n hn => hτ n (fun ht => by
    rw [isVar_14 c ht] at hn; cases hn)))
  have upP : ∀ n, (∀ s, New sn3 nr s → n ≠ uri s) → (⟨S1.fint.fn, P⟩ : FInt D).fn n = S1.fn (funSym n) ∧
      (⟨S1.fint.fn, P⟩ : FInt D).pr n = S1.pr (symbolOf n) ∧ (fun n => S1.cst (symbolOf n)) n = S1.cst (symbolOf n) :=
    fun n hn => ⟨rfl, hP n (fun k hk _ e => hn (dfName k).str (.inr ⟨k, hk, rfl⟩) e), rfl⟩
  refine ⟨S1.upd (New sn3 nr) ⟨S1.fint.fn, P⟩ (fun n => S1.cst (symbolOf n)), o1.trans l3 (Nat.le_refl _) (Str.upd_off _ _ _ _), ?_⟩
  intro τ hτ
  have := hg5 (fun n => if n.ty = 14 then τ n else S1.cst (symbolOf n)) (fun n hn => by simp [hn])
  refine (holds_congr _ (fun n hn => ?_) (fun n hn => ?_)).1 this
  · show (if n.ty = 14 then τ n else S1.cst (symbolOf n)) = τ n
    by_cases ht : n.ty = 14
    · simp [ht]
    · have nv : isVar c n = false := by
        rcases nm4 n hn with h | ⟨k, ⟨_, _, rfl⟩ | ⟨_, rfl⟩⟩
        · exact n3 n h ht
        · exact isVar_dfName c k
        · exact isVar_dfName c k
      obtain ⟨t, h1, h2⟩ := free_atom _ hn
      have ok : OkName n := ((wtFA_names t (w5 t h1) h2).resolve_left (by simp [nv])).1
      simp only [ht, if_false]
      rw [hτ n nv, (Str.upd_name upP ok).1]
  · have := Str.upd_name upP (w5.head hn).1
    exact ⟨this.2.1.symm, this.2.2.symm⟩

theorem clausify_ok {c : VarCfg} {strat : Bool} {fuel sn nr : Nat} {sg : Const → SRole} (hF : Fresh sn nr sg) : ∀ {f g : Frm} {sn' nr' : Nat},
    Adm c sg f → clausify c strat fuel sn nr f = some (g, sn', nr') → ClRes c sg sn nr f g sn' nr' := by
  have gen : ∀ {f g : Frm} {sn' nr' : Nat}, Adm c sg f → clausifySteps strat fuel sn nr (close c f) = some (g, sn', nr') →
      ClRes c sg sn nr f g sn' nr' := by
    intro f g sn' nr' ha h
    obtain ⟨sg', l1, l2, x, F, cn, w, u, b, k⟩ := steps_ok hF ha.close.1 ha.close.2 h
    exact ⟨sg', l1, l2, x, F, cn, w, u, fun S hS => sat_of_close (b S hS), fun S hS => k S (sat_close hS)⟩
  intro f
  induction f using Frm.rec (motive_2 := fun _ => True) with
  | «at» t =>
    intro g sn' nr' ha h
    simp only [clausify, Option.some.injEq, Prod.mk.injEq] at h
    obtain ⟨rfl, rfl, rfl⟩ := h
    exact ⟨sg, Nat.le_refl _, Nat.le_refl _, .refl _ _ _, hF, .cls (.lit (.at t)), ha.wt,
      fun n m hn hm vn _ e => (ha.names n m (.inl hn) (.inl hm) (isVar_okVar vn) (.inr vn) e.symm).symm,
      fun _ hS => hS, fun S hS => ⟨S, .refl _ _, hS⟩⟩
  | par f ih =>
    intro g sn' nr' ha h
    simp only [clausify] at h
    split at h
    · have two : TwoArg f := by cases ha.two; assumption
      exact ih ⟨two, ha.bound, ha.names, ha.wt⟩ h
    · cases h
  | neg f _ => intro g sn' nr' ha h; exact gen ha h
  | and f _ => intro g sn' nr' ha h; exact gen ha h
  | or f _ => intro g sn' nr' ha h; exact gen ha h
  | imp f _ => intro g sn' nr' ha h; exact gen ha h
  | eqv a b _ _ => intro g sn' nr' ha h; exact gen ha h
  | all vs f _ => intro g sn' nr' ha h; exact gen ha h
  | ex vs f _ => intro g sn' nr' ha h; exact gen ha h
  | nil => trivial
  | cons _ _ _ _ => trivial

/-! ### Flat clauses -/

section
variable {D : Type}

open Classical in
/-- quoted `'$true'` and `'$false'` read as truth values -/
noncomputable def Str.quoted (S : Str D) : FInt D where
  fn n := S.fn (funSym n)
  pr n ds := if n.ty % 100 = 7 ∧ n.ty ≠ 7 ∧ (n.str = "$true" ∨ n.str = "$false") then n.str = "$true" else S.pr (symbolOf n) ds

theorem Str.quoted_truth {S : Str D} (h : S.Truth) : TruthOk S.quoted := by
  intro n hn
  unfold Str.quoted
  by_cases h7 : n.ty = 7
  · have e : symbolOf n = .sym n.str := by simp [symbolOf, h7]
    simp only [h7, ne_eq, not_true, false_and, and_false, if_false, e]
    exact ⟨fun w => by rw [w]; exact h.1, fun w => by rw [w]; exact h.2⟩
  · simp only [hn, ne_eq, h7, not_false_eq_true, true_and]
    refine ⟨fun w => ?_, fun w => ?_⟩
    · rw [if_pos (.inl w)]; exact w
    · rw [if_pos (.inr w), w]; decide

theorem Str.quoted_name (S : Str D) {n : Nm} (ok : OkName n) : S.quoted.fn n = S.fint.fn n ∧ S.quoted.pr n = S.fint.pr n := by
  refine ⟨rfl, funext fun ds => ?_⟩
  show (if _ then _ else _) = _
  rw [if_neg]
  · rfl
  · rintro ⟨h1, h2, h3⟩
    rcases ok with h | ⟨_, h⟩ | ⟨h, _⟩ | ⟨h, _⟩
    · exact h2 h
    · exact h3.elim h.1 h.2
    · rw [h] at h1; cases h1
    · rw [h] at h1; cases h1

/-- the literals of a flat clause keep to the roles -/
def FWt (c : VarCfg) (sg : Const → SRole) : FCl → Prop
  | .tru => True
  | .lits ls => ∀ l ∈ ls, Lit l ∧ WtF c sg l

theorem flat_true {c : VarCfg} {sg : Const → SRole} {g : Frm} (hc : Cnf g) (w : WtF c sg g) {cs : List FCl} (e : flat g = some cs) :
    (∀ fc ∈ cs, FWt c sg fc) ∧ ∀ (S : Str D), S.Truth → Sat c S g → ∀ fc ∈ cs, ∀ τ, S.Val c τ → FCl.Holds S.fint τ fc := by
  obtain ⟨cs', e', hl, hs⟩ := C29_flatten_equivalent hc
  rw [e] at e'
  cases e'
  have wl : ∀ fc ∈ cs, FWt c sg fc := by
    intro fc hfc
    cases fc with
    | tru => trivial
    | lits ls => exact fun l hm => ⟨(hl ls hfc l hm).1, fun t ht => w t (flat_atoms hc cs e ls hfc l hm t ht)⟩
  refine ⟨wl, fun S hS hg fc hfc τ hτ => ?_⟩
  have hq : S.quoted.holds τ g := (holds_congr g (fun _ _ => rfl) (fun n hn => by
    have := S.quoted_name (w.head hn).1
    exact ⟨this.1.symm, this.2.symm⟩)).1 (hg τ hτ)
  have := (hs S.quoted τ (Str.quoted_truth hS)).2 hq fc hfc
  cases fc with
  | tru => trivial
  | lits ls =>
    obtain ⟨l, hm, h⟩ := this
    exact ⟨l, hm, (holds_congr l (fun _ _ => rfl) (fun n hn => S.quoted_name (((wl _ hfc) l hm).2.head hn).1)).1 h⟩

theorem Off.truth {sn nr : Nat} {S S' : Str D} (ho : Off (New sn nr) S S') (h : S.Truth) : S'.Truth := by
  have a := (ho (.sym "$true") (fun s hs e => new_ne hs (by rw [← Const.sym.inj e]; simp))).2.2
  have b := (ho (.sym "$false") (fun s hs e => new_ne hs (by rw [← Const.sym.inj e]; simp))).2.2
  exact ⟨by rw [a]; exact h.1, by rw [b]; exact h.2⟩
end

theorem FWt.mono {c : VarCfg} {sn nr : Nat} {sg sg' : Const → SRole} (hf : Fresh sn nr sg) (h : Ext sn nr sg sg') :
    ∀ {fc : FCl}, FWt c sg fc → FWt c sg' fc
  | .tru, _ => trivial
  | .lits _, w => fun l hl => ⟨(w l hl).1, (w l hl).2.mono hf h⟩

theorem Adm.mono {c : VarCfg} {sn nr : Nat} {sg sg' : Const → SRole} (hf : Fresh sn nr sg) (h : Ext sn nr sg sg') {f : Frm}
    (a : Adm c sg f) : Adm c sg' f := ⟨a.two, a.bound, a.names, a.wt.mono hf h⟩

/-- all formulas of a problem -/
theorem clausifies_ok {c : VarCfg} {strat : Bool} {fuel sn nr : Nat} {items : List Item} {fcs : List FCl}
    (h : Clausifies c strat fuel sn nr items fcs) : ∀ (sg : Const → SRole), Fresh sn nr sg → (∀ it ∈ items, Adm c sg it.prepared) →
    ∃ sg', Ext sn nr sg sg' ∧ (∀ fc ∈ fcs, FWt c sg' fc) ∧
      ∀ {D : Type} (S : Str D), S.Truth → (∀ it ∈ items, Sat c S it.prepared) →
        ∃ S', Off (New sn nr) S S' ∧ ∀ fc ∈ fcs, ∀ τ, S'.Val c τ → FCl.Holds S'.fint τ fc := by
  induction h with
  | nil => exact fun sg _ _ => ⟨sg, .refl _ _ _, by simp, fun S _ _ => ⟨S, .refl _ _, by simp⟩⟩
  | @skip sn nr sn' nr' it its ds hs hn _ ih =>
    intro sg hF ha
    obtain ⟨sg', x, w, k⟩ := ih sg (hF.mono hs hn) (fun it hm => ha it (by simp [hm]))
    refine ⟨sg', (Ext.refl sn nr sg).trans hs hn x, w, fun S hT hS => ?_⟩
    obtain ⟨S', o, hh⟩ := k S hT (fun it hm => hS it (by simp [hm]))
    exact ⟨S', o.mono hs hn, hh⟩
  | @one sn nr sn' nr' it its g cs ds h hf _ ih =>
    intro sg hF ha
    obtain ⟨sg1, l1, l2, x1, F1, cn, w1, _, _, k1⟩ := clausify_ok hF (ha it (by simp)) h
    obtain ⟨sg2, x2, w2, k2⟩ := ih sg1 F1 (fun it hm => (ha it (by simp [hm])).mono hF x1)
    refine ⟨sg2, x1.trans l1 l2 x2, fun fc hm => ?_, fun {D} S hT hS => ?_⟩
    · rcases List.mem_append.1 hm with hm | hm
      · exact ((flat_true (D := Unit) cn w1 hf).1 fc hm).mono F1 x2
      · exact w2 fc hm
    · obtain ⟨S1, o1, h1⟩ := k1 S (hS it (by simp))
      obtain ⟨S2, o2, h2⟩ := k2 S1 (o1.truth hT) (fun it hm => (hS it (by simp [hm])).off hF (ha it (by simp [hm])).wt o1)
      refine ⟨S2, o1.trans l1 l2 o2, fun fc hm => ?_⟩
      rcases List.mem_append.1 hm with hm | hm
      · exact (flat_true cn w1 hf).2 S2 (o2.truth (o1.truth hT)) (h1.off F1 w1 o2) fc hm
      · exact h2 fc hm

/-! ### Built clauses -/

theorem quoteChar_plain (ch : Char) : quoteChar ch = !(ch.isAlphanum || ch == '$' || ch == '_' || ch == '@') := by
  have e : ∀ d : Char, (ch == d) = decide (ch.toNat = d.toNat) := by
    intro d
    rw [Bool.eq_iff_iff, beq_iff_eq, decide_eq_true_iff]
    exact ⟨fun h => by rw [h], fun h => Char.ext (UInt32.toNat_inj.1 h)⟩
  rw [Bool.eq_iff_iff]
  simp only [quoteChar, Char.isAlphanum, Char.isAlpha, Char.isUpper, Char.isLower, Char.isDigit, e]
  simp only [Bool.or_eq_true, Bool.and_eq_true, decide_eq_true_eq, Bool.not_eq_true', Bool.or_eq_false_iff, Bool.and_eq_false_iff,
    decide_eq_false_iff_not, ge_iff_le, UInt32.le_iff_toNat_le]
  simp only [show ch.val.toNat = ch.toNat from rfl]
  generalize ch.toNat = k
  split <;> simp_all <;> omega

theorem shouldQuote_plain {s : String} {ch : Char} {cs : List Char} (h : s.toList = ch :: cs) :
    (ch.isUpper || shouldQuote s) = !plainStr s := by
  have e : (ch :: cs).any quoteChar = !(ch :: cs).all (fun ch => ch.isAlphanum || ch == '$' || ch == '_' || ch == '@') := by
    rw [List.not_all_eq_any_not]
    congr 1
    exact funext quoteChar_plain
  have q : shouldQuote s = (ch == '0' || !(ch :: cs).all (fun ch => ch.isAlphanum || ch == '$' || ch == '_' || ch == '@')) := by
    unfold shouldQuote
    rw [h, ← e]
    split
    · rename_i w
      injection w with w
      simp [w]
    · rename_i w
      have : ch ≠ '0' := fun h0 => w cs (by rw [h0])
      simp [this]
  rw [q]
  unfold plainStr
  rw [h]
  simp only
  generalize (ch :: cs).all _ = b
  cases ch.isUpper <;> cases (ch == '0') <;> cases b <;> rfl

theorem anonOf_symbol {h : Bool} {s : String} (hs : h = true ∨ s ∉ opNames) : anonOf h s = anonSymbol s := by
  unfold anonSymbol
  rw [anonOf.eq_def]
  split
  · rename_i cs e
    simp [e]
  · rename_i ch e
    have q := shouldQuote_plain e
    have so : s = String.ofList [ch] := by rw [← e, String.ofList_toList]
    rw [if_neg (c := List.take 2 _ = _) (by rw [e]; simp)]
    by_cases hop : s ∈ opNames
    · obtain rfl := hs.resolve_right (by simpa using hop)
      rw [if_pos (c := s ∈ opNames ∨ _) (.inl hop), if_pos]
      simp only [opNames, List.mem_cons, List.not_mem_nil, or_false] at hop
      rcases hop with w | w | w | w | w <;> rw [w] at e <;> cases e <;> decide
    · rw [if_neg, q]
      · cases plainStr s <;> simp [hop]
      · intro hc
        simp only [Bool.and_eq_true, Bool.or_eq_true, beq_iff_eq] at hc
        obtain ⟨_, (((rfl | rfl) | rfl) | rfl) | rfl⟩ := hc <;> exact hop (by rw [so]; decide)
  · rename_i ch cs h1 h2 e
    rw [if_neg (c := List.take 2 _ = _), shouldQuote_plain e]
    · have hop : s ∉ opNames := by
        intro hop
        simp only [opNames, List.mem_cons, List.not_mem_nil, or_false] at hop
        rcases hop with w | w | w | w | w <;> rw [w] at e <;> cases e <;> exact h2 rfl
      cases plainStr s <;> simp [hop]
    · rw [e]
      intro ht
      cases cs with
      | nil => simp at ht
      | cons d cs =>
        simp only [List.take_succ_cons, List.take_zero, List.cons.injEq, and_true] at ht
        obtain ⟨rfl, rfl⟩ := ht
        exact h1 _ rfl rfl
  · rename_i e
    simp [e, plainStr]

theorem primOf_ok {h : Bool} {n : Nm} (ok : OkName n) (h13 : h = true ∨ NoOp n) : primOf h n = some (symbolOf n) := by
  rcases ok with e | ⟨e | e, _⟩ | ⟨e, h1, h2, h3⟩ | ⟨e, hm⟩
  · simp [primOf, symbolOf, e]
  · simp [primOf, symbolOf, e]
  · simp [primOf, symbolOf, e]
  · have : intOf n.str = some (decimal n.str : Int) := by
      unfold intOf
      rw [if_pos ⟨h1, h2⟩]
      have key : ∀ d : Nat, d < 2 ^ 31 → (if (d : Int) < 2 ^ 63 then some (((d : Int) + 2 ^ 31) % 2 ^ 32 - 2 ^ 31) else none) = some (d : Int) := by
        intro d hd
        rw [if_pos (by omega), Option.some.injEq]
        omega
      exact key _ h3
    simp [primOf, symbolOf, e, this]
  · have : anonOf h n.str = anonSymbol n.str := by
      refine anonOf_symbol (h13.imp id fun h => h e)
    simp [primOf, symbolOf, e, this]

theorem renameF_ok {n : Nm} (ok : OkName n) (hf : OkFunName n) : primOf true (renameF n) = some (funSym n) := by
  unfold renameF funSym
  by_cases e : n.ty = 7 ∨ n.ty = 13
  · simp only [e, true_and]
    split
    · rfl
    · split
      · rfl
      · split
        · rfl
        · split
          · rfl
          · exact primOf_ok ok (.inl rfl)
  · rw [not_or] at e
    have := (hf.2.resolve_left e.1).resolve_left e.2
    simp only [List.mem_cons, List.not_mem_nil, or_false, not_or] at this
    simp only [this, if_false, and_false]
    exact primOf_ok ok (.inl rfl)

/-- the roles of symbols in the clauses: propositional symbols are arguments of `$pr` -/
def clRole (sg : Const → SRole) (k : Const) : Role :=
  if k = .sym "$pr" then .pred else match sg k with
    | .pred => .pred
    | .func => .func
    | _ => .cnst

open Classical in
/-- the structure for the clauses: a propositional symbol has the value `d1` if it is true -/
noncomputable def Str.cl {D : Type} (S : Str D) (sg : Const → SRole) (d0 d1 : D) : FO where
  D := D
  cst k := if sg k = .prop then (if S.pr k [] then d1 else d0) else S.cst k
  fn := S.fn
  pr k ds := if k = .sym "$pr" then ds = [d1] else if k = aFalse then False else if k = aTrue then True else S.pr k ds

/-- values of names from values of numbered variables -/
def Str.env {D : Type} (S : Str D) (c : VarCfg) (W : List String) (ρ : Nat → D) (n : Nm) : D :=
  if isVar c n then ρ (W.idxOf n.str) else S.cst (symbolOf n)

theorem varNr_ok {vd vd' : List String} {s : String} {v : Nat} (hl : vd.length ≤ 1000) (h : varNr vd s = some (v, vd')) :
    vd'.length ≤ 1000 ∧ (∃ r, vd' = vd ++ r) ∧ v < 1000 ∧ ∀ W, (∃ r, W = vd' ++ r) → W.idxOf s = v := by
  unfold varNr at h
  split at h
  · rename_i hm
    simp only [Option.some.injEq, Prod.mk.injEq] at h
    obtain ⟨rfl, rfl⟩ := h
    refine ⟨hl, ⟨[], by simp⟩, Nat.lt_of_lt_of_le (List.idxOf_lt_length_of_mem hm) hl, ?_⟩
    rintro W ⟨r, rfl⟩
    rw [List.idxOf_append, if_pos hm]
  · rename_i hm
    split at h
    · rename_i hlt
      simp only [Option.some.injEq, Prod.mk.injEq] at h
      obtain ⟨rfl, rfl⟩ := h
      refine ⟨by simp; omega, ⟨[s], rfl⟩, hlt, ?_⟩
      rintro W ⟨r, rfl⟩
      rw [List.append_assoc, List.idxOf_append, if_neg hm]
      simp
    · cases h

/-- the structure `M` for the clauses reads the symbols as `S` does; a propositional symbol is true in
`S` when `$pr` of it is true in `M` -/
structure Reads (sg : Const → SRole) (M : FO) (S : Str M.D) : Prop where
  cst : ∀ k, sg k = .cnst → M.cst k = S.cst k
  fn : ∀ k, sg k = .func → M.fn k = S.fn k
  pr : ∀ k, sg k = .pred → (∀ j, k ≠ .oth j) → M.pr k = S.pr k
  prop : ∀ k, sg k = .prop → (M.pr (.sym "$pr") [M.cst k] ↔ S.pr k [])

theorem symbolOf_oth (n : Nm) (j : Nat) : symbolOf n ≠ .oth j := by
  unfold symbolOf anonSymbol
  repeat' split
  all_goals simp

theorem Str.cl_reads {D : Type} (S : Str D) {sg : Const → SRole} (hp : sg (.sym "$pr") = .unused) {d0 d1 : D} (hd : d0 ≠ d1) :
    Reads sg (S.cl sg d0 d1) S := by
  refine ⟨fun k h => by simp [Str.cl, h], fun k _ => rfl, fun k h ho => ?_, fun k h => ?_⟩
  · have n1 : k ≠ .sym "$pr" := by
      rintro rfl
      rw [hp] at h
      cases h
    have n2 : k ≠ aFalse := ho 0
    have n3 : k ≠ aTrue := ho 1
    simp [Str.cl, n1, n2, n3]
  · by_cases hq : S.pr k []
    · simp [Str.cl, h, hq]
    · simp [Str.cl, h, hq, hd]

section
variable {c : VarCfg} {sg : Const → SRole} (hp : sg (.sym "$pr") = .unused)

include hp in
theorem clRole_of {k : Const} (h : sg k ≠ .unused) : clRole sg k = match sg k with
    | .pred => .pred
    | .func => .func
    | _ => .cnst := by
  unfold clRole
  rw [if_neg]
  rintro rfl
  exact h hp

variable {M : FO} {S : Str M.D} (hr : Reads sg M S)

include hp hr in
mutual
theorem buildT_ok : ∀ (t : FT) (vd : List String) (T : Term) (vd' : List String), WtFT c sg t → vd.length ≤ 1000 →
    buildT c vd t = some (T, vd') → vd'.length ≤ 1000 ∧ (∃ r, vd' = vd ++ r) ∧ (∀ v ∈ vars T, v < 1000) ∧ WtT (clRole sg) T ∧
      ∀ W, (∃ r, W = vd' ++ r) → ∀ ρ : Nat → M.D, M.eval ρ T = S.fint.ev (S.env c W ρ) t
  | .nm n, vd, T, vd', w, hl, h => by
    simp only [buildT] at h
    split at h
    · rename_i hv
      obtain ⟨⟨v, vd1⟩, e, h⟩ := Option.map_eq_some_iff.1 h
      simp only [Prod.mk.injEq] at h
      obtain ⟨rfl, rfl⟩ := h
      obtain ⟨a, b, d, f⟩ := varNr_ok hl e
      refine ⟨a, b, by simpa using d, trivial, fun W hW ρ => ?_⟩
      simp only [FO.eval, FInt.ev, Str.env, hv, f W hW, if_true]
    · rename_i hv
      obtain ⟨ok, h13, hs⟩ := w.resolve_left hv
      rw [primOf_ok ok (.inr h13)] at h
      simp only [Option.map_some, Option.some.injEq, Prod.mk.injEq] at h
      obtain ⟨rfl, rfl⟩ := h
      refine ⟨hl, ⟨[], by simp⟩, by simp, ?_, fun W _ ρ => ?_⟩
      · show clRole sg _ = _
        rw [clRole_of hp (by simp [hs]), hs]
      · simp [FO.eval, FInt.ev, Str.env, hv, hr.cst _ hs]
  | .app f as, vd, T, vd', w, hl, h => by
    obtain ⟨ok, hv, okf, hs, wl⟩ := w
    simp only [buildT, if_neg okf.1, renameF_ok ok okf] at h
    obtain ⟨⟨As, vd1⟩, e, h⟩ := Option.map_eq_some_iff.1 h
    simp only [Prod.mk.injEq] at h
    obtain ⟨rfl, rfl⟩ := h
    obtain ⟨a, b, d, g, k⟩ := buildTL_ok as vd As vd1 wl hl e
    refine ⟨a, b, by simpa using d, ⟨?_, g⟩, fun W hW ρ => ?_⟩
    · rw [clRole_of hp (by simp [hs]), hs]
    · simp only [FO.eval, FInt.ev]
      rw [k W hW ρ, hr.fn _ hs]
      rfl
theorem buildTL_ok : ∀ (ts : List FT) (vd : List String) (Ts : List Term) (vd' : List String), WtFTL c sg ts → vd.length ≤ 1000 →
    buildTL c vd ts = some (Ts, vd') → vd'.length ≤ 1000 ∧ (∃ r, vd' = vd ++ r) ∧ (∀ v ∈ varsL Ts, v < 1000) ∧ WtL (clRole sg) Ts ∧
      ∀ W, (∃ r, W = vd' ++ r) → ∀ ρ : Nat → M.D, M.evalL ρ Ts = S.fint.evL (S.env c W ρ) ts
  | [], vd, Ts, vd', _, hl, h => by
    simp only [buildTL, Option.some.injEq, Prod.mk.injEq] at h
    obtain ⟨rfl, rfl⟩ := h
    exact ⟨hl, ⟨[], by simp⟩, by simp, trivial, fun _ _ _ => rfl⟩
  | t :: ts, vd, Ts, vd', w, hl, h => by
    simp only [buildTL] at h
    obtain ⟨⟨A, vd1⟩, e1, h⟩ := Option.bind_eq_some_iff.1 h
    obtain ⟨⟨As, vd2⟩, e2, h⟩ := Option.map_eq_some_iff.1 h
    simp only [Prod.mk.injEq] at h
    obtain ⟨rfl, rfl⟩ := h
    obtain ⟨a1, ⟨r1, b1⟩, v1, w1, k1⟩ := buildT_ok t vd A vd1 w.1 hl e1
    obtain ⟨a2, ⟨r2, b2⟩, v2, w2, k2⟩ := buildTL_ok ts vd1 As vd2 w.2 a1 e2
    refine ⟨a2, ⟨r1 ++ r2, by rw [b2, b1, List.append_assoc]⟩, ?_, ⟨w1, w2⟩, fun W hW ρ => ?_⟩
    · intro v hv
      simp only [varsL, List.mem_append] at hv
      exact hv.elim (v1 v) (v2 v)
    · obtain ⟨r, rW⟩ := hW
      simp only [FO.evalL, FInt.evL]
      rw [k1 W ⟨r2 ++ r, by rw [rW, b2, List.append_assoc]⟩ ρ, k2 W ⟨r, rW⟩ ρ]
end

mutual
theorem buildT_mem : ∀ (t : FT) (vd : List String) (T : Term) (vd' : List String), buildT c vd t = some (T, vd') →
    (∀ s ∈ vd, s ∈ vd') ∧ ∀ n ∈ argsT t, isVar c n = true → n.str ∈ vd'
  | .nm n, vd, T, vd', h => by
    simp only [buildT] at h
    split at h
    · obtain ⟨⟨v, vd1⟩, e, h⟩ := Option.map_eq_some_iff.1 h
      simp only [Prod.mk.injEq] at h
      obtain ⟨rfl, rfl⟩ := h
      unfold varNr at e
      have : vd1 = vd ∧ n.str ∈ vd ∨ vd1 = vd ++ [n.str] := by
        split at e
        · rename_i hm
          simp only [Option.some.injEq, Prod.mk.injEq] at e
          exact .inl ⟨e.2.symm, hm⟩
        · split at e
          · simp only [Option.some.injEq, Prod.mk.injEq] at e
            exact .inr e.2.symm
          · cases e
      refine ⟨fun s hs => ?_, fun m hm _ => ?_⟩
      · rcases this with ⟨rfl, _⟩ | rfl
        · exact hs
        · simp [hs]
      · simp only [argsT, List.mem_singleton] at hm
        subst hm
        rcases this with ⟨rfl, h⟩ | rfl
        · exact h
        · simp
    · rename_i hv
      obtain ⟨k, _, h⟩ := Option.map_eq_some_iff.1 h
      simp only [Prod.mk.injEq] at h
      obtain ⟨_, rfl⟩ := h
      refine ⟨fun s hs => hs, fun m hm vm => ?_⟩
      simp only [argsT, List.mem_singleton] at hm
      subst hm
      exact absurd vm hv
  | .app f as, vd, T, vd', h => by
    simp only [buildT] at h
    split at h
    · cases h
    · obtain ⟨k, _, h⟩ := Option.bind_eq_some_iff.1 h
      obtain ⟨⟨As, vd1⟩, e, h⟩ := Option.map_eq_some_iff.1 h
      simp only [Prod.mk.injEq] at h
      obtain ⟨_, rfl⟩ := h
      exact buildTL_mem as vd As vd1 e
theorem buildTL_mem : ∀ (ts : List FT) (vd : List String) (Ts : List Term) (vd' : List String), buildTL c vd ts = some (Ts, vd') →
    (∀ s ∈ vd, s ∈ vd') ∧ ∀ n ∈ argsTL ts, isVar c n = true → n.str ∈ vd'
  | [], vd, Ts, vd', h => by
    simp only [buildTL, Option.some.injEq, Prod.mk.injEq] at h
    obtain ⟨_, rfl⟩ := h
    exact ⟨fun _ h => h, by simp [argsTL]⟩
  | t :: ts, vd, Ts, vd', h => by
    simp only [buildTL] at h
    obtain ⟨⟨A, vd1⟩, e1, h⟩ := Option.bind_eq_some_iff.1 h
    obtain ⟨⟨As, vd2⟩, e2, h⟩ := Option.map_eq_some_iff.1 h
    simp only [Prod.mk.injEq] at h
    obtain ⟨_, rfl⟩ := h
    obtain ⟨a1, b1⟩ := buildT_mem t vd A vd1 e1
    obtain ⟨a2, b2⟩ := buildTL_mem ts vd1 As vd2 e2
    refine ⟨fun s hs => a2 s (a1 s hs), fun n hn hv => ?_⟩
    simp only [argsTL, List.mem_append] at hn
    exact hn.elim (fun hn => a2 _ (b1 n hn hv)) (fun hn => b2 n hn hv)
end

theorem buildA_mem {t : FT} {vd : List String} {T : Term} {vd' : List String} (w : WtFA c sg t) (h : buildA c vd t = some (T, vd')) :
    ∀ n ∈ namesT t, isVar c n = true → n.str ∈ vd' := by
  intro n hn hv
  cases t with
  | nm p =>
    simp only [namesT, List.mem_singleton] at hn
    subst hn
    rw [w.2.2.1] at hv
    cases hv
  | app p as =>
    simp only [buildA] at h
    obtain ⟨k, _, h⟩ := Option.bind_eq_some_iff.1 h
    obtain ⟨⟨As, vd1⟩, e, h⟩ := Option.map_eq_some_iff.1 h
    simp only [Prod.mk.injEq] at h
    obtain ⟨_, rfl⟩ := h
    rcases names_split _ hn with hn | hn
    · exact (buildTL_mem as vd As vd1 e).2 n hn hv
    · have w' : WtF c sg (.at (.app p as)) := fun u hu => by cases hu; exact w
      have := (w'.head (n := n) (by simpa [headIn, headsA, headsT] using hn)).2
      rw [hv] at this
      cases this

theorem buildTL_length : ∀ (ts : List FT) (vd : List String) (Ts : List Term) (vd' : List String),
    buildTL c vd ts = some (Ts, vd') → Ts.length = ts.length
  | [], vd, Ts, vd', h => by
    simp only [buildTL, Option.some.injEq, Prod.mk.injEq] at h
    obtain ⟨rfl, rfl⟩ := h
    rfl
  | t :: ts, vd, Ts, vd', h => by
    simp only [buildTL] at h
    obtain ⟨⟨A, vd1⟩, e1, h⟩ := Option.bind_eq_some_iff.1 h
    obtain ⟨⟨As, vd2⟩, e2, h⟩ := Option.map_eq_some_iff.1 h
    simp only [Prod.mk.injEq] at h
    obtain ⟨rfl, rfl⟩ := h
    simp [buildTL_length ts vd1 As vd2 e2]

include hp hr in
theorem buildA_ok (t : FT) (vd : List String) (T : Term) (vd' : List String) (w : WtFA c sg t) (hl : vd.length ≤ 1000)
    (h : buildA c vd t = some (T, vd')) : vd'.length ≤ 1000 ∧ (∃ r, vd' = vd ++ r) ∧ (∀ v ∈ vars T, v < 1000) ∧
      WtAtom (clRole sg) T ∧ ∀ W, (∃ r, W = vd' ++ r) → ∀ ρ : Nat → M.D, M.atom ρ T ↔ S.fint.atom (S.env c W ρ) t := by
  cases t with
  | nm n =>
    obtain ⟨ok, h13, hv, hs⟩ := w
    simp only [buildA, buildT, hv, Bool.false_eq_true, if_false, primOf_ok ok (.inr h13), Option.map_some, Option.some.injEq,
      Prod.mk.injEq] at h
    obtain ⟨rfl, rfl⟩ := h
    refine ⟨hl, ⟨[], by simp⟩, by simp, ⟨by simp [clRole], ⟨?_, trivial⟩, by simp⟩, fun W _ ρ => ?_⟩
    · show clRole sg _ = _
      rw [clRole_of hp (by simp [hs]), hs]
    · exact hr.prop _ hs
  | app p as =>
    obtain ⟨ok, hv, hs, he, wl⟩ := w
    simp only [buildA, primOf_ok ok (.inl rfl)] at h
    obtain ⟨⟨As, vd1⟩, e, h⟩ := Option.map_eq_some_iff.1 h
    simp only [Prod.mk.injEq] at h
    obtain ⟨rfl, rfl⟩ := h
    obtain ⟨a, b, d, g, k⟩ := buildTL_ok hp hr as vd As vd1 wl hl e
    refine ⟨a, b, by simpa using d, ⟨?_, g, fun q => by rw [buildTL_length as vd As vd1 e]; exact he q⟩, fun W hW ρ => ?_⟩
    · rw [clRole_of hp (by simp [hs]), hs]
    · simp only [FO.atom, FInt.atom]
      rw [k W hW ρ, hr.pr _ hs (symbolOf_oth p)]
      rfl

include hp hr in
theorem buildLs_ok : ∀ (ls : List Frm) (vd : List String) (Ls : List Gkc.Lit), (∀ l ∈ ls, Lit l ∧ WtF c sg l) → vd.length ≤ 1000 →
    buildLs c vd ls = some Ls → (∀ L ∈ Ls, WtAtom (clRole sg) L.atom ∧ ∀ v ∈ vars L.atom, v < 1000) ∧
      ∃ W, (∃ r, W = vd ++ r) ∧ (∀ l ∈ ls, ∀ n, freeIn n l → isVar c n = true → n.str ∈ W) ∧
      ∀ ρ : Nat → M.D, (∃ l ∈ ls, S.fint.holds (S.env c W ρ) l) ↔
        ∃ L ∈ Ls, if L.neg then ¬ M.atom ρ L.atom else M.atom ρ L.atom
  | [], vd, Ls, _, _, h => by
    simp only [buildLs, Option.some.injEq] at h
    subst h
    exact ⟨by simp, vd, ⟨[], by simp⟩, by simp, fun ρ => by simp⟩
  | l :: ls, vd, Ls, w, hl, h => by
    simp only [buildLs] at h
    obtain ⟨⟨L, vd1⟩, e1, h⟩ := Option.bind_eq_some_iff.1 h
    obtain ⟨Ls', e2, rfl⟩ := Option.map_eq_some_iff.1 h
    have one : vd1.length ≤ 1000 ∧ (∃ r, vd1 = vd ++ r) ∧ (WtAtom (clRole sg) L.atom ∧ ∀ v ∈ vars L.atom, v < 1000) ∧
        (∀ n, freeIn n l → isVar c n = true → n.str ∈ vd1) ∧
        ∀ W, (∃ r, W = vd1 ++ r) → ∀ ρ : Nat → M.D, S.fint.holds (S.env c W ρ) l ↔
          if L.neg then ¬ M.atom ρ L.atom else M.atom ρ L.atom := by
      obtain ⟨lit, wt⟩ := w l (by simp)
      cases lit with
      | «at» t =>
        simp only [Clausify.buildL] at e1
        obtain ⟨⟨T, vd2⟩, e, h⟩ := Option.map_eq_some_iff.1 e1
        simp only [Prod.mk.injEq] at h
        obtain ⟨rfl, rfl⟩ := h
        obtain ⟨a, b, d, g, k⟩ := buildA_ok hp hr t vd T vd2 (wt t rfl) hl e
        exact ⟨a, b, ⟨g, d⟩, buildA_mem (wt t rfl) e, fun W hW ρ => (k W hW ρ).symm⟩
      | neg t =>
        simp only [Clausify.buildL] at e1
        obtain ⟨⟨T, vd2⟩, e, h⟩ := Option.map_eq_some_iff.1 e1
        simp only [Prod.mk.injEq] at h
        obtain ⟨rfl, rfl⟩ := h
        obtain ⟨a, b, d, g, k⟩ := buildA_ok hp hr t vd T vd2 (wt t rfl) hl e
        exact ⟨a, b, ⟨g, d⟩, buildA_mem (wt t rfl) e, fun W hW ρ => (not_congr (k W hW ρ)).symm⟩
    obtain ⟨a1, ⟨r1, b1⟩, g1, m1, k1⟩ := one
    obtain ⟨g2, W, ⟨r, hW⟩, m2, k2⟩ := buildLs_ok ls vd1 Ls' (fun l hl => w l (by simp [hl])) a1 e2
    refine ⟨?_, W, ⟨r1 ++ r, by rw [hW, b1, List.append_assoc]⟩, ?_, fun ρ => ?_⟩
    · intro L' hL
      rcases List.mem_cons.1 hL with rfl | hL
      · exact g1
      · exact g2 L' hL
    · intro l' hl' n hn hv
      rcases List.mem_cons.1 hl' with rfl | hl'
      · rw [hW]
        exact List.mem_append.2 (.inl (m1 n hn hv))
      · exact m2 l' hl' n hn hv
    · simp only [List.mem_cons, exists_eq_or_imp]
      exact or_congr (k1 W ⟨r, hW⟩ ρ) (k2 ρ)

include hp hr in
theorem buildCl_ok (htr : sg (.sym "$true") = .prop) (hT : S.Truth) {fc : FCl} (w : FWt c sg fc)
    {Ls : List Gkc.Lit} (h : buildCl c fc = some Ls) :
    (∀ L ∈ Ls, WtAtom (clRole sg) L.atom ∧ ∀ v ∈ vars L.atom, v < 1000) ∧
    ((∀ τ, S.Val c τ → FCl.Holds S.fint τ fc) → M.holds Ls) := by
  cases fc with
  | tru =>
    have e : isVar c ⟨13, "$true"⟩ = false := rfl
    have e' : primOf false ⟨13, "$true"⟩ = some (.sym "$true") := by decide
    have e2 : Clausify.buildL c [] (.at (.nm ⟨13, "$true"⟩)) = some (⟨false, .app (.sym "$pr") [.const (.sym "$true")]⟩, []) := by
      simp only [Clausify.buildL, buildA, buildT, e, Bool.false_eq_true, if_false, e', Option.map_some]
    simp only [buildCl, buildLs, e2, Option.map_some, Option.bind_some, Option.some.injEq] at h
    subst h
    refine ⟨?_, fun _ ρ => ⟨_, List.mem_singleton.2 rfl, ?_⟩⟩
    · intro L hL
      rw [List.mem_singleton] at hL
      subst hL
      refine ⟨⟨by simp [clRole], ⟨?_, trivial⟩, by simp⟩, by simp⟩
      show clRole sg _ = _
      rw [clRole_of hp (by simp [htr]), htr]
    · exact (hr.prop _ htr).2 hT.1
  | lits ls =>
    obtain ⟨g, W, _, _, k⟩ := buildLs_ok hp hr ls [] Ls w (by simp) h
    exact ⟨g, fun hh ρ => (k ρ).1 (hh (S.env c W ρ) (fun n hn => by simp [Str.env, hn]))⟩
end

/-! ### The theorem -/

/-- C40 (partial).  The formulas of a problem are turned into clauses (`Clausifies`, `buildCl`), the
clauses are given to the saturation loop, and the loop reports a refutation.  Then in every structure
with at least two elements in which `=` is identity and `$true`, `$false` mean truth and falsity: if all
axioms are true, then for some conjecture there are values of its free variables that make it true.

For one closed conjecture this is: the conjecture follows from the axioms.  Several conjectures count
as their disjunction, and the free variables of a conjecture are read existentially, because the code
negates a conjecture before it quantifies the free variables.

What is assumed: every symbol is used in one role (also across formulas), Skolem names and names
of new predicates are not used in the problem, integers are below 2^31, `'$true'` is not quoted, no
computable symbols are evaluated, no clause gets more than 256 literals.  Missing: structures
with one element (propositional symbols become constants, and the model of paramodulation lets an
equation replace a variable). -/
theorem C40_proof_means_consequence_partial {c : VarCfg} {strat : Bool} {fuel sn nr : Nat} {items : List Item} {fcs : List FCl}
    (sg : Const → SRole) (hF : Fresh sn nr sg) (hp : sg (.sym "$pr") = .unused) (htr : sg (.sym "$true") = .prop)
    (hnum : ∀ k, isNumber k → sg k = .cnst) (ha : ∀ it ∈ items, Adm c sg it.frm)
    (hc : Clausifies c strat fuel sn nr items fcs) (wd : Const → Int) (hh m : Term → Nat) (input : List (List ALit))
    (hi : ∀ cl ∈ input, ∃ fc ∈ fcs, ∃ ls, buildCl c fc = some ls ∧ NewCl ls cl) (s : PState)
    (h : Run ⟨some, wd, hh, m⟩ ShortActive input s) (hs : s.refuted = true)
    (M : FO) (he : ∀ a b, M.pr (.sym "=") [a, b] ↔ a = b) (h1 : M.pr (.sym "$true") []) (h0 : ¬ M.pr (.sym "$false") [])
    (d0 d1 : M.D) (hd : d0 ≠ d1) (hax : ∀ it ∈ items, it.conj = false → Sat c M.str it.frm) :
    ∃ it ∈ items, it.conj = true ∧ ∃ τ, M.str.Val c τ ∧ M.str.fint.holds τ it.frm := by
  by_cases goal : ∃ it ∈ items, it.conj = true ∧ ∃ τ, M.str.Val c τ ∧ M.str.fint.holds τ it.frm
  · exact goal
  exfalso
  have hT : M.str.Truth := ⟨h1, h0⟩
  have adm : ∀ it ∈ items, Adm c sg it.prepared := by
    intro it hm
    have a := ha it hm
    unfold Item.prepared
    split
    · exact ⟨.neg a.two, a.bound, a.names, a.wt⟩
    · exact a
  have sat : ∀ it ∈ items, Sat c M.str it.prepared := by
    intro it hm
    unfold Item.prepared
    split
    · rename_i hcj
      exact fun τ hτ hh => goal ⟨it, hm, hcj, τ, hτ, hh⟩
    · rename_i hcj
      exact hax it hm (by simpa using hcj)
  obtain ⟨sg', x, w, k⟩ := clausifies_ok hc sg hF adm
  obtain ⟨S, o, hS⟩ := k M.str hT sat
  have old : ∀ q : String, q ∈ ["=", "$true", "$pr"] → ∀ s, New sn nr s → Const.sym q ≠ .sym s := by
    intro q hq s hs e
    refine new_ne hs ?_
    rw [← Const.sym.inj e]
    simp only [List.mem_cons, List.not_mem_nil, or_false] at hq
    rcases hq with rfl | rfl | rfl <;> simp
  have hp' : sg' (.sym "$pr") = .unused := by rw [x _ (old _ (by simp)), hp]
  have htr' : sg' (.sym "$true") = .prop := by rw [x _ (old _ (by simp)), htr]
  have hnum' : ∀ k, isNumber k → clRole sg' k = .cnst := by
    intro k hk
    have : sg' k = sg k := x k (fun s _ e => by subst e; exact hk)
    unfold clRole
    rw [if_neg (by rintro rfl; exact hk), this, hnum k hk]
  have build := fun {fc : FCl} (hm : fc ∈ fcs) {Ls} (e : buildCl c fc = some Ls) =>
    buildCl_ok hp' (S.cl_reads hp' hd) htr' (o.truth hT) (w fc hm) e
  have inp : ∀ cl ∈ input, InputOk (clRole sg') cl := by
    intro cl hcl
    obtain ⟨fc, hm, ls, e, hn⟩ := hi cl hcl
    have key : ∀ l ∈ cl, l.lit ∈ ls := fun l hl => by rw [← hn.1]; exact List.mem_map.2 ⟨l, hl, rfl⟩
    exact ⟨fun l hl => ((build hm e).1 _ (key l hl)).1, fun l hl => ((build hm e).1 _ (key l hl)).2, hn.2⟩
  have eq : ∀ a b, (S.cl sg' d0 d1).pr (.sym "=") [a, b] ↔ a = b := by
    intro a b
    have : (S.cl sg' d0 d1).pr (.sym "=") [a, b] = S.pr (.sym "=") [a, b] := by simp [Str.cl, aTrue, aFalse]
    rw [this, (o (.sym "=") (old _ (by simp))).2.2]
    exact he a b
  have t1 : (S.cl sg' d0 d1).pr aTrue [] := by simp [Str.cl, aTrue, aFalse]
  have t0 : ¬ (S.cl sg' d0 d1).pr aFalse [] := by simp [Str.cl, aFalse]
  obtain ⟨cl, hcl, bad⟩ := C33_refutation_means_unsatisfiable_partial wd hh m (clRole sg') hnum' input inp s h hs
    (S.cl sg' d0 d1) eq t1 t0
  obtain ⟨fc, hm, ls, e, hn⟩ := hi cl hcl
  refine bad ?_
  have : plain cl = ls := hn.1
  rw [this]
  exact (build hm e).2 (hS fc hm)

/-! ### Cases -/

/-- capital letters and question marks mark variables -/
def exVar : VarCfg := ⟨true, true⟩

/-- `p(a)` -/
def exP (p a : String) : FT := .app (uri p) [.nm (uri a)]

/-- axioms `p(a)`, `all X: q(X) | -p(X)`, conjecture `q(a)` -/
def exItems : List Item :=
  [⟨false, .at (exP "p" "a")⟩, ⟨false, .all [uri "X"] (.or [.at (exP "q" "X"), .neg (.at (exP "p" "X"))])⟩,
   ⟨true, .at (exP "q" "a")⟩]

/-- their clauses -/
def exFcs : List FCl :=
  [.lits [.at (exP "p" "a")], .lits [.neg (.at (.app (uri "p") [.nm ⟨14, "X1"⟩])), .at (.app (uri "q") [.nm ⟨14, "X1"⟩])],
   .lits [.neg (.at (exP "q" "a"))]]

/-- the roles -/
def exSRole : Const → SRole
  | .sym s => if s = "a" then .cnst else if s = "p" ∨ s = "q" then .pred else if s = "$true" ∨ s = "$false" then .prop else .unused
  | .int _ => .cnst
  | .dbl _ => .cnst
  | _ => .unused

theorem exFresh : Fresh 0 0 exSRole := by
  intro s hs
  have key : ∃ t, s.toList = '$' :: 's' :: 'k' :: t ∨ s.toList = '$' :: 'd' :: 'f' :: t := by
    rcases hs with ⟨j, _, rfl⟩ | ⟨j, _, rfl⟩
    · exact ⟨(toString j).toList, .inl (by simp [skName, uri, String.toList_append])⟩
    · exact ⟨(toString j).toList, .inr (by simp [dfName, uri, String.toList_append])⟩
  obtain ⟨t, ht⟩ := key
  simp only [exSRole]
  rw [if_neg, if_neg, if_neg]
  · rintro (rfl | rfl) <;> simp at ht
  · rintro (rfl | rfl) <;> simp at ht
  · rintro rfl; simp at ht

theorem exAdm : ∀ it ∈ exItems, Adm exVar exSRole it.frm := by
  intro it h
  simp only [exItems, List.mem_cons, List.not_mem_nil, or_false] at h
  have vX : isVar exVar (uri "X") = true := by decide
  have vp : isVar exVar (uri "p") = false := by decide
  have vq : isVar exVar (uri "q") = false := by decide
  rcases h with rfl | rfl | rfl
  · refine ⟨.at _, fun n h => h.elim, fun n m hn hm _ _ e => ?_, fun t ht => ?_⟩
    · simp only [nameIn, freeIn, boundIn, exP, namesT, namesTL, List.mem_cons, List.not_mem_nil, or_false, List.append_nil] at hn hm
      rcases hn with rfl | rfl <;> rcases hm with rfl | rfl <;> simp_all [uri]
    · cases ht
      simp [exP, WtFA, WtFTL, WtFT, OkName, NoOp, symbolOf, exSRole, uri] at *
      simp [vp]
  · refine ⟨.all _ (.or (.at _) (.neg (.at _))), fun n h => ?_, fun n m hn hm _ _ e => ?_, fun t ht => ?_⟩
    · simp only [boundIn, boundInL, or_false, List.mem_singleton] at h
      subst h
      exact vX
    · simp only [nameIn, freeIn, freeInL, boundIn, boundInL, exP, namesT, namesTL, List.mem_cons, List.not_mem_nil, or_false, List.append_nil] at hn hm
      have h1 : n = uri "X" ∨ n = uri "p" ∨ n = uri "q" := by
        rcases hn with ⟨_, (h | h) | (h | h)⟩ | h <;> simp [h]
      have h2 : m = uri "X" ∨ m = uri "p" ∨ m = uri "q" := by
        rcases hm with ⟨_, (h | h) | (h | h)⟩ | h <;> simp [h]
      rcases h1 with rfl | rfl | rfl <;> rcases h2 with rfl | rfl | rfl <;> simp_all [uri]
    · rcases ht with ht | ht | ht
      · cases ht
        simp [exP, WtFA, WtFTL, WtFT, OkName, NoOp, symbolOf, exSRole, uri] at *
        simp [vq, vX]
      · cases ht
        simp [exP, WtFA, WtFTL, WtFT, OkName, NoOp, symbolOf, exSRole, uri] at *
        simp [vp, vX]
      · exact ht.elim
  · refine ⟨.at _, fun n h => h.elim, fun n m hn hm _ _ e => ?_, fun t ht => ?_⟩
    · simp only [nameIn, freeIn, boundIn, exP, namesT, namesTL, List.mem_cons, List.not_mem_nil, or_false, List.append_nil] at hn hm
      rcases hn with rfl | rfl <;> rcases hm with rfl | rfl <;> simp_all [uri]
    · cases ht
      simp [exP, WtFA, WtFTL, WtFT, OkName, NoOp, symbolOf, exSRole, uri] at *
      simp [vq]

theorem exClausifies : Clausifies exVar true 9 0 0 exItems exFcs := by
  have l1 : ∀ t, flat (.at t) = some [.lits [.at t]] := fun t => by simp [flat, flatOr]
  have l2 : ∀ t, flat (.neg (.at t)) = some [.lits [.neg (.at t)]] := fun t => by simp [flat, flatOr]
  refine .one (cs := [.lits [.at (exP "p" "a")]]) (g := .at (exP "p" "a")) rfl (l1 _) ?_
  refine .one (cs := [.lits [.neg (.at (.app (uri "p") [.nm ⟨14, "X1"⟩])), .at (.app (uri "q") [.nm ⟨14, "X1"⟩])]])
    (g := .or [.neg (.at (.app (uri "p") [.nm ⟨14, "X1"⟩])), .at (.app (uri "q") [.nm ⟨14, "X1"⟩])])
    (by rfl) (by simp [flat, flatOr, truthOf]) ?_
  exact .one (cs := [.lits [.neg (.at (exP "q" "a"))]]) (g := .neg (.at (exP "q" "a"))) (by rfl) (l2 _) .nil

theorem exBuilt : ∀ cl ∈ exInput, ∃ fc ∈ exFcs, ∃ ls, buildCl exVar fc = some ls ∧ NewCl ls cl := by
  intro cl h
  simp only [exInput, List.mem_cons, List.not_mem_nil, or_false] at h
  rcases h with rfl | rfl | rfl
  · exact ⟨_, .head _, _, by rfl, by rfl, by simp [Sep]⟩
  · exact ⟨_, .tail _ (.head _), _, by rfl, by rfl, by simp [Sep]⟩
  · exact ⟨_, .tail _ (.tail _ (.head _)), _, by rfl, by rfl, by simp [Sep]⟩

/-- the problem meets the hypotheses, the loop finds a proof, and so the conjecture is a consequence -/
example (M : FO) (he : ∀ a b, M.pr (.sym "=") [a, b] ↔ a = b) (h1 : M.pr (.sym "$true") []) (h0 : ¬ M.pr (.sym "$false") [])
    (d0 d1 : M.D) (hd : d0 ≠ d1) (hax : ∀ it ∈ exItems, it.conj = false → Sat exVar M.str it.frm) :
    M.pr (.sym "q") [M.cst (.sym "a")] := by
  obtain ⟨s, r, hs⟩ := exRun
  obtain ⟨it, hm, hc, τ, hτ, h⟩ := C40_proof_means_consequence_partial exSRole exFresh (by simp [exSRole]) (by simp [exSRole])
    (fun k hk => by cases k <;> simp_all [isNumber, exSRole]) exAdm exClausifies _ _ _ exInput exBuilt s r hs M he h1 h0 d0 d1 hd hax
  simp only [exItems, List.mem_cons, List.not_mem_nil, or_false] at hm
  rcases hm with rfl | rfl | rfl
  · cases hc
  · cases hc
  · have e := hτ (uri "a") (by decide)
    simp only [FInt.holds, exP, FInt.atom, FInt.evL, FInt.ev, e] at h
    exact h

/-- axiom `p(4294967297)`, conjecture `p(1)` -/
def bigItems : List Item :=
  [⟨false, .at (.app (uri "p") [.nm ⟨3, "4294967297"⟩])⟩, ⟨true, .at (.app (uri "p") [.nm ⟨3, "1"⟩])⟩]

/-- the clauses that are built: `p(1)` and `-p(1)` -/
def bigInput : List (List ALit) := [[⟨0, false, ap "p" [.const (.int 1)]⟩], [⟨0, true, ap "p" [.const (.int 1)]⟩]]

/-- two elements; `p` is true of the number that was written in the axiom -/
def bigFO : FO where
  D := Bool
  cst k := decide (k = .int 4294967297)
  fn _ _ := false
  pr q as := (q = sy "=" ∧ ∃ a, as = [a, a]) ∨ (q = sy "p" ∧ as = [true]) ∨ q = sy "$true"

/-- Finding: an integer of the problem is stored as the low 32 bits (`int intdata` in
wr_parse_primitive, Parser/dbparse.c), so 4294967297 and 1 are the same constant and a proof is found
for a conjecture that is no consequence.  So the bound on integers in C40 is needed. -/
theorem C40_large_integer_false_proof : ∃ fcs, Clausifies exVar true 9 0 0 bigItems fcs ∧
    (∀ cl ∈ bigInput, ∃ fc ∈ fcs, ∃ ls, buildCl exVar fc = some ls ∧ NewCl ls cl) ∧
    (∃ s, Run exCfg ShortActive bigInput s ∧ s.refuted = true) ∧
    ∃ M : FO, (∀ a b, M.pr (.sym "=") [a, b] ↔ a = b) ∧ M.pr (.sym "$true") [] ∧ ¬ M.pr (.sym "$false") [] ∧
      (∃ d0 d1 : M.D, d0 ≠ d1) ∧ (∀ it ∈ bigItems, it.conj = false → Sat exVar M.str it.frm) ∧
      ∀ it ∈ bigItems, it.conj = true → ∀ τ, M.str.Val exVar τ → ¬ M.str.fint.holds τ it.frm := by
  have l1 : ∀ t, flat (.at t) = some [.lits [.at t]] := fun t => by simp [flat, flatOr]
  have l2 : ∀ t, flat (.neg (.at t)) = some [.lits [.neg (.at t)]] := fun t => by simp [flat, flatOr]
  refine ⟨_, .one (g := .at (.app (uri "p") [.nm ⟨3, "4294967297"⟩])) rfl (l1 _)
    (.one (g := .neg (.at (.app (uri "p") [.nm ⟨3, "1"⟩]))) (by rfl) (l2 _) .nil), ?_, ?_, bigFO, ?_, .inr (.inr rfl), ?_,
    ⟨true, false, Bool.noConfusion⟩, ?_, ?_⟩
  · intro cl h
    simp only [bigInput, List.mem_cons, List.not_mem_nil, or_false] at h
    have e1 : primOf false ⟨3, "4294967297"⟩ = some (.int 1) := by decide +kernel
    have e2 : primOf false ⟨3, "1"⟩ = some (.int 1) := by decide +kernel
    have v : ∀ q, isVar exVar ⟨3, q⟩ = false := fun q => rfl
    have e3 : primOf true (uri "p") = some (.sym "p") := by decide
    rcases h with rfl | rfl
    · refine ⟨_, .head _, [⟨false, ap "p" [.const (.int 1)]⟩], ?_, ?_⟩
      · simp only [buildCl, buildLs, Clausify.buildL, buildA, buildTL, buildT, v, Bool.false_eq_true, if_false, e1, e3, Option.map_some,
          Option.bind_some]
        rfl
      · exact ⟨rfl, by simp [Sep]⟩
    · refine ⟨_, .tail _ (.head _), [⟨true, ap "p" [.const (.int 1)]⟩], ?_, ?_⟩
      · simp only [buildCl, buildLs, Clausify.buildL, buildA, buildTL, buildT, v, Bool.false_eq_true, if_false, e2, e3, Option.map_some,
          Option.bind_some]
        rfl
      · exact ⟨rfl, by simp [Sep]⟩
  · have r0 : Run exCfg ShortActive bigInput _ := .start (by simp [ShortActive, PState.init])
    have r1 := Run.step r0 (.pick (cl := [⟨0, false, ap "p" [.const (.int 1)]⟩]) (.head _) (List.Perm.refl _)) (by simp [ShortActive, PState.init])
    have r2 := Run.step r1 (.activate (g := tagPos _) (a := tagPos _) (n := 9) (n' := 9) rfl rfl rfl (tagPos_new _) rfl (tagPos_new _))
      (by simp [ShortActive, PState.init, tagPos])
    have r3 := Run.step r2 (.pick (cl := [⟨0, true, ap "p" [.const (.int 1)]⟩]) (by simp [PState.init, bigInput]) (List.Perm.refl _))
      (by simp [ShortActive, PState.init, tagPos])
    have r4 := Run.step r3 (.activate (g := tagPos _) (a := tagPos _) (n := 9) (n' := 9) rfl rfl rfl (tagPos_new _) rfl (tagPos_new _))
      (by simp [ShortActive, PState.init, tagPos])
    have r5 := Run.step r4 (.deriveEmpty (.resolve (y := [⟨0, false, ap "p" [.const (.int 1)]⟩]) (n := 9) (i := 0) (j := 0) rfl (.tail _ (.head _)) rfl)
      (cutsNone _) clean_empty tagPos_new (fwd := true) (strong := false) (sdup := false) (m := fun _ => 0) (n := 9) rfl)
      (by simp [ShortActive, PState.init, tagPos])
    exact ⟨_, r5, rfl⟩
  · intro a b
    constructor
    · rintro (⟨_, c, hc⟩ | ⟨h, _⟩ | h)
      · have h1 : a = c := by injection hc
        have h2 : b = c := by injection hc with _ h; injection h
        rw [h1, h2]
      · simp [sy] at h
      · simp [sy] at h
    · rintro rfl; exact Or.inl ⟨rfl, a, rfl⟩
  · rintro (⟨h, _⟩ | ⟨h, _⟩ | h) <;> simp [sy] at h
  · intro it hm hc τ hτ
    simp only [bigItems, List.mem_cons, List.not_mem_nil, or_false] at hm
    rcases hm with rfl | rfl
    · have e : τ ⟨3, "4294967297"⟩ = true := (hτ _ rfl).trans
        (show decide (symbolOf ⟨3, "4294967297"⟩ = .int 4294967297) = true by decide +kernel)
      exact .inr (.inl ⟨by simp [symbolOf, uri, sy], by simp only [FInt.evL, FInt.ev, e]; rfl⟩)
    · cases hc
  · intro it hm hc τ hτ
    simp only [bigItems, List.mem_cons, List.not_mem_nil, or_false] at hm
    rcases hm with rfl | rfl
    · cases hc
    · have e : τ ⟨3, "1"⟩ = false := (hτ _ rfl).trans
        (show decide (symbolOf ⟨3, "1"⟩ = .int 4294967297) = false by decide +kernel)
      rintro (⟨h, _⟩ | ⟨_, h⟩ | h)
      · simp [symbolOf, uri, sy] at h
      · simp only [FInt.evL, FInt.ev, e] at h
        exact absurd (List.cons.inj h).1 Bool.noConfusion
      · simp [symbolOf, uri, sy] at h

/-- axioms `f = g`, `p(f(a))`, conjecture `p(g(a))` -/
def shItems : List Item :=
  [⟨false, .at (.app ⟨13, "="⟩ [.nm (uri "f"), .nm (uri "g")])⟩, ⟨false, .at (.app (uri "p") [.app (uri "f") [.nm (uri "a")]])⟩,
   ⟨true, .at (.app (uri "p") [.app (uri "g") [.nm (uri "a")]])⟩]

/-- like `sharedFO`, with `$true` -/
def shFO : FO where
  D := Bool
  cst _ := true
  fn f _ := decide (f = sy "f")
  pr q as := (q = sy "=" ∧ ∃ a, as = [a, a]) ∨ (q = sy "p" ∧ as = [true]) ∨ q = sy "$true"

/-- Finding: with `f` and `g` used both as constants and as functions the equation between the
constants is applied to the functions, and a proof is found for a conjecture that is no consequence.
So the condition on roles in C40 is needed. -/
theorem C40_shared_symbol_false_proof : ∃ fcs, Clausifies exVar true 9 0 0 shItems fcs ∧
    (∀ cl ∈ sharedInput, ∃ fc ∈ fcs, ∃ ls, buildCl exVar fc = some ls ∧ NewCl ls cl) ∧
    (∃ s, Run exCfg ShortActive sharedInput s ∧ s.refuted = true) ∧
    ∃ M : FO, (∀ a b, M.pr (.sym "=") [a, b] ↔ a = b) ∧ M.pr (.sym "$true") [] ∧ ¬ M.pr (.sym "$false") [] ∧
      (∃ d0 d1 : M.D, d0 ≠ d1) ∧ (∀ it ∈ shItems, it.conj = false → Sat exVar M.str it.frm) ∧
      ∀ it ∈ shItems, it.conj = true → ∀ τ, M.str.Val exVar τ → ¬ M.str.fint.holds τ it.frm := by
  have l1 : ∀ t, flat (.at t) = some [.lits [.at t]] := fun t => by simp [flat, flatOr]
  have l2 : ∀ t, flat (.neg (.at t)) = some [.lits [.neg (.at t)]] := fun t => by simp [flat, flatOr]
  obtain ⟨_, _, _, _, _, run⟩ := C33_shared_symbol_refutes_satisfiable
  refine ⟨_, .one (g := .at _) rfl (l1 _) (.one (g := .at _) rfl (l1 _)
    (.one (g := .neg (.at (.app (uri "p") [.app (uri "g") [.nm (uri "a")]]))) (by rfl) (l2 _) .nil)), ?_, run, shFO, ?_, .inr (.inr rfl), ?_,
    ⟨true, false, Bool.noConfusion⟩, ?_, ?_⟩
  · intro cl h
    simp only [sharedInput, List.mem_cons, List.not_mem_nil, or_false] at h
    rcases h with rfl | rfl | rfl
    · exact ⟨_, .head _, _, by rfl, by rfl, by simp [Sep]⟩
    · exact ⟨_, .tail _ (.head _), _, by rfl, by rfl, by simp [Sep]⟩
    · exact ⟨_, .tail _ (.tail _ (.head _)), _, by rfl, by rfl, by simp [Sep]⟩
  · intro a b
    constructor
    · rintro (⟨_, c, hc⟩ | ⟨h, _⟩ | h)
      · have h1 : a = c := by injection hc
        have h2 : b = c := by injection hc with _ h; injection h
        rw [h1, h2]
      · simp [sy] at h
      · simp [sy] at h
    · rintro rfl; exact Or.inl ⟨rfl, a, rfl⟩
  · rintro (⟨h, _⟩ | ⟨h, _⟩ | h) <;> simp [sy] at h
  · intro it hm hc τ hτ
    simp only [shItems, List.mem_cons, List.not_mem_nil, or_false] at hm
    rcases hm with rfl | rfl | rfl
    · have e1 : τ (uri "f") = true := hτ _ (by decide)
      have e2 : τ (uri "g") = true := hτ _ (by decide)
      exact .inl ⟨by decide, true, by simp only [FInt.evL, FInt.ev, e1, e2]; rfl⟩
    · exact .inr (.inl ⟨by simp [symbolOf, uri, sy], by simp [FInt.evL, FInt.ev, Str.fint, FO.str, shFO, funSym, symbolOf, uri, sy]⟩)
    · cases hc
  · intro it hm hc τ hτ
    simp only [shItems, List.mem_cons, List.not_mem_nil, or_false] at hm
    rcases hm with rfl | rfl | rfl
    · cases hc
    · cases hc
    · rintro (⟨h, _⟩ | ⟨_, h⟩ | h)
      · simp [symbolOf, uri, sy] at h
      · simp [FInt.evL, FInt.ev, Str.fint, FO.str, shFO, funSym, symbolOf, uri, sy] at h
      · simp [symbolOf, uri, sy] at h

end Gkc.Props
