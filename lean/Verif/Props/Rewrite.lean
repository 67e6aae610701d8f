import Verif.RewriteLemmas
import Verif.Props.Order
import Verif.Props.Cuts
/- Property theorems C19 (rewriting is sound) and C20 (rewriting terminates). -/
namespace Gkc.Props
open Gkc Term

/-- the equation `s = t` is true in `I` -/
def EqTrue (I : Interp) (s t : Term) : Prop := ClTrue I [⟨false, .app (.sym "=") [s, t]⟩]

mutual
/-- function symbols of a term -/
def funs : Term → List Const
  | .var _ => []
  | .const _ => []
  | .app f as => f :: funsL as
/-- function symbols of a list of terms -/
def funsL : List Term → List Const
  | [] => []
  | a :: as => funs a ++ funsL as
end

theorem mem_funsL {f : Const} {as : List Term} : f ∈ funsL as ↔ ∃ a ∈ as, f ∈ funs a := by
  induction as with
  | nil => simp [funsL]
  | cons a as ih => simp [funsL, ih]

mutual
theorem funs_subst {θ : Nat → Term} {f : Const} : ∀ {t : Term}, f ∈ funs (subst θ t) →
    f ∈ funs t ∨ ∃ v ∈ vars t, f ∈ funs (θ v)
  | .var v, h => by right; exact ⟨v, by simp, by simpa using h⟩
  | .const c, h => by simp [funs] at h
  | .app g as, h => by
    rw [Term.subst] at h
    simp only [funs, List.mem_cons] at h ⊢
    rcases h with h | h
    · exact Or.inl (Or.inl h)
    · rcases funs_substL h with h | ⟨v, hv, h⟩
      · exact Or.inl (Or.inr h)
      · exact Or.inr ⟨v, by simpa using hv, h⟩
theorem funs_substL {θ : Nat → Term} {f : Const} : ∀ {as : List Term}, f ∈ funsL (substL θ as) →
    f ∈ funsL as ∨ ∃ v ∈ varsL as, f ∈ funs (θ v)
  | [], h => by simp [substL, funsL] at h
  | a :: as, h => by
    simp only [substL, funsL, List.mem_append, varsL_cons] at h ⊢
    rcases h with h | h
    · rcases funs_subst h with h | ⟨v, hv, h⟩
      · exact Or.inl (Or.inl h)
      · exact Or.inr ⟨v, Or.inl hv, h⟩
    · rcases funs_substL h with h | ⟨v, hv, h⟩
      · exact Or.inl (Or.inr h)
      · exact Or.inr ⟨v, Or.inr hv, h⟩
end

mutual
theorem funs_val {θ : Nat → Term} {f : Const} {v : Nat} (hf : f ∈ funs (θ v)) : ∀ {t : Term}, v ∈ vars t → f ∈ funs (subst θ t)
  | .var w, h => by simp at h; subst h; simpa using hf
  | .const c, h => by simp at h
  | .app g as, h => by
    rw [Term.subst]
    simp only [funs, List.mem_cons]
    exact Or.inr (funs_valL hf (by simpa using h))
theorem funs_valL {θ : Nat → Term} {f : Const} {v : Nat} (hf : f ∈ funs (θ v)) : ∀ {as : List Term}, v ∈ varsL as →
    f ∈ funsL (substL θ as)
  | [], h => by simp at h
  | a :: as, h => by
    simp only [varsL_cons, List.mem_append] at h
    simp only [substL, funsL, List.mem_append]
    rcases h with h | h
    · exact Or.inl (funs_val hf h)
    · exact Or.inr (funs_valL hf h)
end

/-- The stored unit equations: true in `I`, at most 1000 variables each, with variables `V` of
their own (bank of the kept clauses). -/
structure Eqs (V : Nat → Prop) (eqs : List (Term × Term)) : Prop where
  few : ∀ e ∈ eqs, Few (vars e.1) ∧ Few (vars e.2)
  own : ∀ e ∈ eqs, (∀ v ∈ vars e.1, V v) ∧ ∀ v ∈ vars e.2, V v

/-- The function symbols met are in `F`, and no equation has a symbol of `F` alone as one of its
sides. -/
structure Symbols (F : Const → Prop) (eqs : List (Term × Term)) (ev : Term → Option Term) : Prop where
  sides : ∀ e ∈ eqs, (∀ f ∈ funs e.1, F f) ∧ ∀ f ∈ funs e.2, F f
  alone : ∀ e ∈ eqs, ∀ f, F f → e.1 ≠ .const f ∧ e.2 ≠ .const f
  comp : ∀ t t', ev t = some t' → (∀ f ∈ funs t, F f) → ∀ f ∈ funs t', F f

theorem ruleOf_mem {wd : Const → Int} {eqs : List (Term × Term)} {h : Term → Nat} {key l r : Term}
    (hm : (l, r) ∈ bucketOf h (rulesOf wd eqs) key) :
    orderEq wd l r = 1 ∧ ((l, r) ∈ eqs ∨ (r, l) ∈ eqs) := by
  simp only [bucketOf, rulesOf, List.mem_filter, List.mem_filterMap] at hm
  obtain ⟨⟨e, he, h1⟩, _⟩ := hm
  simp only [ruleOf] at h1
  split at h1
  · rename_i h2; cases h1; exact ⟨h2, Or.inl he⟩
  · split at h1
    · rename_i h2; cases h1; exact ⟨(C21_never_both wd _ _).1.2 h2, Or.inr he⟩
    · cases h1

theorem rule_few {V : Nat → Prop} {wd : Const → Int} {eqs : List (Term × Term)} (he : Eqs V eqs) {h : Term → Nat} {key l r : Term}
    (hm : (l, r) ∈ bucketOf h (rulesOf wd eqs) key) : Few (vars l) ∧ Few (vars r) ∧ (∀ v ∈ vars l, V v) := by
  obtain ⟨_, h1 | h1⟩ := ruleOf_mem hm
  · exact ⟨(he.few _ h1).1, (he.few _ h1).2, (he.own _ h1).1⟩
  · exact ⟨(he.few _ h1).2, (he.few _ h1).1, (he.own _ h1).2⟩

theorem rule_gt {V : Nat → Prop} {wd : Const → Int} {eqs : List (Term × Term)} (he : Eqs V eqs) {h : Term → Nat} {key l r : Term}
    (hm : (l, r) ∈ bucketOf h (rulesOf wd eqs) key) : Gt wd l r := by
  obtain ⟨h1, h2, _⟩ := rule_few he hm
  exact (orderEq_gt h1 h2).1 (ruleOf_mem hm).1

theorem rule_true {I : Interp} (hI : EqInterp I) {wd : Const → Int} {eqs : List (Term × Term)}
    (ht : ∀ e ∈ eqs, EqTrue I e.1 e.2) {E : Type} {π : I.D → E}
    (hπ : ∀ a b : I.D, I.tr (I.fn (.sym "=") [a, b]) ↔ π a = π b) {h : Term → Nat} {key l r : Term}
    (hm : (l, r) ∈ bucketOf h (rulesOf wd eqs) key) (ρ : Nat → I.D) : π (eval I ρ r) = π (eval I ρ l) := by
  have key : ∀ s t : Term, EqTrue I s t → π (eval I ρ s) = π (eval I ρ t) := by
    intro s t h
    obtain ⟨x, hx, htr⟩ := h ρ
    simp only [List.mem_singleton] at hx
    subst hx
    exact (hπ _ _).1 (by simpa [Lit.tr, eval, evalL] using htr)
  obtain ⟨_, h1 | h1⟩ := ruleOf_mem hm
  · exact (key _ _ (ht _ h1)).symm
  · exact key _ _ (ht _ h1)

theorem eqTrue_iff {I : Interp} {E : Type} {π : I.D → E}
    (hπ : ∀ a b : I.D, I.tr (I.fn (.sym "=") [a, b]) ↔ π a = π b) {s t : Term} :
    EqTrue I s t ↔ ∀ ρ : Nat → I.D, π (eval I ρ s) = π (eval I ρ t) := by
  constructor
  · intro h ρ
    obtain ⟨x, hx, htr⟩ := h ρ
    simp only [List.mem_singleton] at hx
    subst hx
    exact (hπ _ _).1 (by simpa [Lit.tr, eval, evalL] using htr)
  · intro h ρ
    refine ⟨_, List.mem_singleton_self _, ?_⟩
    simpa [Lit.tr, eval, evalL] using (hπ _ _).2 (h ρ)

theorem All2.map_eq {α : Type} {g : Term → α} {as bs : List Term} (h : All2 (fun a b => g b = g a) as bs) :
    bs.map g = as.map g := by
  induction h with
  | nil => rfl
  | cons h0 _ ih => simp [h0, ih]

theorem rwConst_symbol {F : Const → Prop} {wd : Const → Int} {eqs ev} {h : Term → Nat} (hs : Symbols F eqs ev) {f : Const} (hf : F f)
    {n : Nat} {y : Term} {k : Nat} (e : rwConst (bucketOf h (rulesOf wd eqs)) n (.const f) = .ok y k) : y = .const f := by
  cases n with
  | zero => simp [rwConst] at e
  | succ n =>
    simp only [rwConst] at e
    split at e
    · cases e; rfl
    · rename_i b e1
      have := ruleOf_mem (findConst_spec e1)
      rcases this.2 with h1 | h1
      · exact absurd rfl (hs.alone _ h1 f hf).1
      · exact absurd rfl (hs.alone _ h1 f hf).2

/-- the values of a term and of its rewritten form -/
theorem C19_rel {I : Interp} {E : Type} {π : I.D → E} (hI : EqInterp I)
    (hπ : ∀ a b : I.D, I.tr (I.fn (.sym "=") [a, b]) ↔ π a = π b)
    (hc : ∀ f as bs, as.map π = bs.map π → I.fn f as = I.fn f bs)
    {V : Nat → Prop} {F : Const → Prop} {wd : Const → Int} {eqs : List (Term × Term)} {ev : Term → Option Term}
    (h : Term → Nat) (ht : ∀ e ∈ eqs, EqTrue I e.1 e.2) (he : Eqs V eqs) (hs : Symbols F eqs ev)
    (hev : EvSound I ev) (hvv : ∀ t t', ev t = some t' → ∀ v ∈ vars t', v ∈ vars t) :
    RwRel ev (bucketOf h (rulesOf wd eqs)) (fun t => (∀ v ∈ vars t, ¬ V v) ∧ ∀ f ∈ funs t, F f)
      (fun x y => ∀ ρ : Nat → I.D, π (eval I ρ y) = π (eval I ρ x)) where
  refl x ρ := rfl
  trans x y z h1 h2 ρ := (h2 ρ).trans (h1 ρ)
  gargs f as g a ha := by
    refine ⟨fun v hv => g.1 v (by rw [vars_app, mem_varsL]; exact ⟨a, ha, hv⟩), fun c hc => g.2 c ?_⟩
    simp only [funs, List.mem_cons, mem_funsL]; exact Or.inr ⟨a, ha, hc⟩
  gapp f as as' g _ g' := by
    refine ⟨?_, ?_⟩
    · intro v hv
      rw [vars_app, mem_varsL] at hv
      obtain ⟨a, ha, hv⟩ := hv
      exact (g' a ha).1 v hv
    · intro c hc
      simp only [funs, List.mem_cons, mem_funsL] at hc
      rcases hc with rfl | ⟨a, ha, hc⟩
      · exact g.2 _ (by simp [funs])
      · exact (g' a ha).2 c hc
  app f as as' hq ρ := by
    simp only [eval, evalL_eq_map]
    have : (as'.map (eval I ρ)).map π = (as.map (eval I ρ)).map π := by
      simp only [List.map_map]
      exact All2.map_eq (g := π ∘ eval I ρ) (hq.imp (fun a _ b hb => hb ρ))
    rw [hc f _ _ this]
  head f g as n k hg hcn := by
    have := rwConst_symbol hs (hg.2 f (by simp [funs])) hcn
    cases this
    exact ⟨hg, fun ρ => rfl⟩
  ev t t' g e := ⟨⟨fun v hv => g.1 v (hvv t t' e v hv), hs.comp t t' e g.2⟩, fun ρ => by rw [hev t t' e ρ]⟩
  step key l r θ hm g := by
    have hgt := rule_gt he hm
    refine ⟨⟨VarLe.noV (hgt.subst θ).1 g.1, ?_⟩, ?_⟩
    · intro f hf
      rcases funs_subst hf with hf | ⟨v, hv, hf⟩
      · rcases (ruleOf_mem hm).2 with h1 | h1
        · exact (hs.sides _ h1).2 f hf
        · exact (hs.sides _ h1).1 f hf
      · exact g.2 f (funs_val hf (VarLe.mem hgt.1 hv))
    · intro ρ
      rw [eval_subst, eval_subst]
      exact rule_true hI ht hπ hm _
  chain key l r x s hm hs' g := chain_of (rule_few he hm).2.2 g.1 hs'

/-- C19 (partial): rewriting a term gives a term equal to it in every interpretation in which the
equations are true, whatever the order of words, the hash function and the bucket order.
Missing: terms in which a symbol that is alone a side of an equation is also used as a function
symbol, see `C19_shared_symbol_unsound`. -/
theorem C19_rewrite_sound_partial {I : Interp} (hI : EqInterp I) {V : Nat → Prop} {F : Const → Prop}
    {wd : Const → Int} {eqs : List (Term × Term)} {ev : Term → Option Term} (h : Term → Nat)
    (ht : ∀ e ∈ eqs, EqTrue I e.1 e.2) (he : Eqs V eqs) (hs : Symbols F eqs ev)
    (hev : EvSound I ev) (hvv : ∀ t t', ev t = some t' → ∀ v ∈ vars t', v ∈ vars t)
    {x y : Term} {n k : Nat} (hx : ∀ v ∈ vars x, ¬ V v) (hf : ∀ f ∈ funs x, F f)
    (hr : rwBuild ev (bucketOf h (rulesOf wd eqs)) n x = .ok y k) : EqTrue I y x := by
  obtain ⟨E, π, hπ, hc⟩ := id hI
  have rel := C19_rel hI hπ hc h ht he hs hev hvv (wd := wd)
  exact (eqTrue_iff hπ).2 (((rw_rel rel n).1 x y k hr ⟨hx, hf⟩).2)

/-- C19 (partial): rewriting an atom keeps its truth.  Missing: as above, and predicate symbols
used as functions in equations, see `C19_shared_predicate_unsound`. -/
theorem C19_rewrite_atom_sound_partial {I : Interp} (hI : EqInterp I) {V : Nat → Prop} {F : Const → Prop}
    {wd : Const → Int} {eqs : List (Term × Term)} {ev : Term → Option Term} (h : Term → Nat)
    (ht : ∀ e ∈ eqs, EqTrue I e.1 e.2) (he : Eqs V eqs) (hs : Symbols F eqs ev)
    (hev : EvSound I ev) (hvv : ∀ t t', ev t = some t' → ∀ v ∈ vars t', v ∈ vars t)
    {p : Const} {as : List Term} {y : Term} {n k : Nat}
    (hp : ∀ e ∈ eqs, headKey e.1 ≠ .const p ∧ headKey e.2 ≠ .const p)
    (hpe : ∀ as r, ev (.app p as) = some r → r = .const aTrue ∨ r = .const aFalse ∨ ∃ bs, r = .app p bs)
    (hx : ∀ v ∈ varsL as, ¬ V v) (hf : F p ∧ ∀ f ∈ funsL as, F f)
    (hr : rwBuild ev (bucketOf h (rulesOf wd eqs)) n (.app p as) = .ok y k) (ρ : Nat → I.D) :
    I.tr (eval I ρ y) ↔ I.tr (eval I ρ (.app p as)) := by
  obtain ⟨E, π, hπ, hc⟩ := id hI
  have rel := C19_rel hI hπ hc h ht he hs hev hvv (wd := wd)
  suffices eval I ρ y = eval I ρ (.app p as) by rw [this]
  cases n with
  | zero => simp [rwBuild] at hr
  | succ n =>
    simp only [rwBuild] at hr
    obtain ⟨f', i, j, h1, h2, _⟩ := ROut.bind_ok hr
    obtain ⟨as', i2, j2, h3, h4, _⟩ := ROut.bind_ok h2
    have := rwConst_symbol hs hf.1 h1
    subst this
    simp only at h4
    have hga : ∀ a ∈ as, (∀ v ∈ vars a, ¬ V v) ∧ ∀ f ∈ funs a, F f := fun a ha =>
      ⟨fun v hv => hx v (mem_varsL.2 ⟨a, ha, hv⟩), fun f hfa => hf.2 f (mem_funsL.2 ⟨a, ha, hfa⟩)⟩
    have hq : All2 (fun a b => π (eval I ρ b) = π (eval I ρ a)) as as' :=
      (mapR_ok h3).imp (fun a ha b ⟨j, hb⟩ => ((rw_rel rel n).1 _ _ _ hb (hga a ha)).2 ρ)
    have e0 : eval I ρ (.app p as') = eval I ρ (.app p as) := by
      simp only [eval, evalL_eq_map]
      refine hc p _ _ ?_
      simp only [List.map_map]
      exact All2.map_eq (g := π ∘ eval I ρ) hq
    split at h4
    · cases h4
    · rename_i r er
      rw [← e0, ← hev _ _ er ρ]
      split at h4
      · cases h4; rfl
      · rename_i hb
        rcases hpe _ _ er with rfl | rfl | ⟨bs, rfl⟩
        · simp [Term.beq] at hb
        · simp [Term.beq] at hb
        · cases n with
          | zero => simp [rwTerm] at h4
          | succ n =>
            simp only [rwTerm] at h4
            split at h4
            · cases h4; rfl
            · cases h4
            · rename_i r s e
              obtain ⟨l, hm, hsm⟩ := findRule_spec e
              have hl := (matchT_sound l St.empty _ s hsm).2.1
              have hlv : ∀ v, l ≠ .var v := by
                rintro v rfl
                obtain ⟨_, h5 | ⟨_, h5⟩⟩ := rule_gt he hm
                · have := size_pos r; simp at h5; omega
                · cases r <;> simp [lexOrder] at h5
                  split at h5 <;> simp at h5
              have hk := headKey_subst (θ := s.val) hlv
              rw [hl] at hk
              rcases (ruleOf_mem hm).2 with h1 | h1
              · exact absurd hk.symm (hp _ h1).1
              · exact absurd hk.symm (hp _ h1).2

/-- C19: the assumption of C18 about rewriting of literals is met. -/
theorem C19_literals_sound_partial {I : Interp} (hI : EqInterp I) {V : Nat → Prop} {F : Const → Prop}
    {wd : Const → Int} {eqs : List (Term × Term)} {ev : Term → Option Term} (h : Term → Nat)
    (ht : ∀ e ∈ eqs, EqTrue I e.1 e.2) (he : Eqs V eqs) (hs : Symbols F eqs ev)
    (hev : EvSound I ev) (hvv : ∀ t t', ev t = some t' → ∀ v ∈ vars t', v ∈ vars t)
    (rw' : ALit → Out (ALit × Bool)) (xcl : List ALit)
    (hrw : ∀ x y w, rw' x = .ok (y, w) → ∃ n k, rwBuild ev (bucketOf h (rulesOf wd eqs)) n x.atom = .ok y.atom k)
    (hat : ∀ x ∈ xcl, ∃ p as, x.atom = .app p as ∧
      (∀ e ∈ eqs, headKey e.1 ≠ .const p ∧ headKey e.2 ≠ .const p) ∧
      (∀ as r, ev (.app p as) = some r → r = .const aTrue ∨ r = .const aFalse ∨ ∃ bs, r = .app p bs) ∧
      (∀ v ∈ varsL as, ¬ V v) ∧ F p ∧ ∀ f ∈ funsL as, F f) : RwSound I rw' xcl := by
  intro x hx y w e ρ
  obtain ⟨n, k, hr⟩ := hrw x y w e
  obtain ⟨p, as, ha, h1, h2, h3, h4⟩ := hat x hx
  rw [ha] at hr ⊢
  exact C19_rewrite_atom_sound_partial hI h ht he hs hev hvv h1 h2 h3 h4 hr ρ

/-! ### Findings -/

/-- an interpretation over the truth values: `=` is identity, the function `f` is constantly
true, other functions constantly false, all constants are true; `p` is true of true, no other
predicate is ever true -/
def boolFO : FO where
  D := Bool
  cst _ := true
  fn f _ := decide (f = sy "f")
  pr q as := (q = sy "=" ∧ ∃ a, as = [a, a]) ∨ (q = sy "p" ∧ as = [true])

theorem boolFO_eq : EqInterp (Interp.ofFO boolFO) := by
  refine ofFO_eqInterp boolFO ?_
  intro a b
  constructor
  · rintro (⟨_, c, hc⟩ | ⟨h, _⟩)
    · have h1 : a = c := by injection hc
      have h2 : b = c := by injection hc with _ h; injection h
      rw [h1, h2]
    · simp [sy] at h
  · rintro rfl; exact Or.inl ⟨rfl, a, rfl⟩

/-- Finding: rewriting also replaces function symbols.  With the true equation `f = g` between
constants, `p(g(a))` is rewritten to `p(f(a))`, here from false to true, so the true clause `-p(g(a))`
becomes the false clause `-p(f(a))`. -/
theorem C19_shared_symbol_unsound :
    EqInterp (Interp.ofFO boolFO) ∧ EqTrue (Interp.ofFO boolFO) (cn "f") (cn "g") ∧
    rwBuild some (bucketOf (fun _ => 0) (rulesOf wdEx [(cn "f", cn "g")])) 10 (ap "p" [ap "g" [cn "a"]]) =
      .ok (ap "p" [ap "f" [cn "a"]]) 1 ∧
    ClTrue (Interp.ofFO boolFO) [⟨true, ap "p" [ap "g" [cn "a"]]⟩] ∧
    ¬ ClTrue (Interp.ofFO boolFO) [⟨true, ap "p" [ap "f" [cn "a"]]⟩] := by
  refine ⟨boolFO_eq, ?_, ?_, ?_, ?_⟩
  · unfold EqTrue
    rw [ofFO_holds _ _ (by simp)]
    intro ρ
    refine ⟨_, List.mem_singleton_self _, ?_⟩
    simp only [Bool.false_eq_true, if_false]
    exact Or.inl ⟨rfl, true, rfl⟩
  · have : rulesOf wdEx [(cn "f", cn "g")] = [(cn "g", cn "f")] := by
      have e : orderEq wdEx (cn "f") (cn "g") = 2 := by decide +kernel
      simp [rulesOf, ruleOf, e]
    rw [this]; rfl
  · rw [ofFO_holds _ _ (by simp [ap])]
    intro ρ
    refine ⟨_, List.mem_singleton_self _, ?_⟩
    simp only [if_true]
    rintro (⟨h, _⟩ | ⟨_, h⟩)
    · simp [sy] at h
    · have : (false : Bool) = true := by simpa [FO.evalL, FO.eval, boolFO, ap, sy] using h
      cases this
  · rw [ofFO_holds _ _ (by simp [ap])]
    intro hh
    obtain ⟨l, hl, h2⟩ := hh (fun _ => true)
    simp only [List.mem_singleton] at hl
    subst hl
    simp only [if_true] at h2
    exact h2 (Or.inr ⟨rfl, rfl⟩)

/-- Finding: an atom whose predicate symbol is also used as a function is rewritten as if it were
a term.  With the true equation `p(a) = b` the atom `p(a)` becomes `b`. -/
theorem C19_shared_predicate_unsound :
    EqTrue (Interp.ofFO { boolFO with cst := fun _ => false, pr := fun q as => (q = sy "=" ∧ ∃ a, as = [a, a]) ∨ q = sy "p" })
      (ap "p" [cn "a"]) (cn "b") ∧
    rwBuild some (bucketOf (fun _ => 0) (rulesOf wdEx [(ap "p" [cn "a"], cn "b")])) 10 (ap "p" [cn "a"]) = .ok (cn "b") 1 ∧
    ClTrue (Interp.ofFO { boolFO with cst := fun _ => false, pr := fun q as => (q = sy "=" ∧ ∃ a, as = [a, a]) ∨ q = sy "p" })
      [⟨false, ap "p" [cn "a"]⟩] ∧
    ¬ ClTrue (Interp.ofFO { boolFO with cst := fun _ => false, pr := fun q as => (q = sy "=" ∧ ∃ a, as = [a, a]) ∨ q = sy "p" })
      [⟨false, cn "b"⟩] := by
  refine ⟨?_, ?_, ?_, ?_⟩
  · unfold EqTrue
    rw [ofFO_holds _ _ (by simp)]
    intro ρ
    refine ⟨_, List.mem_singleton_self _, ?_⟩
    simp only [Bool.false_eq_true, if_false]
    exact Or.inl ⟨rfl, false, rfl⟩
  · have : rulesOf wdEx [(ap "p" [cn "a"], cn "b")] = [(ap "p" [cn "a"], cn "b")] := by
      have e : orderEq wdEx (ap "p" [cn "a"]) (cn "b") = 1 := by decide +kernel
      simp [rulesOf, ruleOf, e]
    rw [this]; rfl
  · rw [ofFO_holds _ _ (by simp [ap])]
    intro ρ
    refine ⟨_, List.mem_singleton_self _, ?_⟩
    simp only [Bool.false_eq_true, if_false]
    exact Or.inr rfl
  · rw [ofFO_holds _ _ (by simp [cn])]
    intro hh
    obtain ⟨l, hl, h2⟩ := hh (fun _ => true)
    simp only [List.mem_singleton] at hl
    subst hl
    simp only [Bool.false_eq_true, if_false] at h2
    rcases h2 with ⟨h, _⟩ | h
    · simp [sy] at h
    · simp [sy] at h

/-- The hypotheses of C19 and C20 can be met: rewriting `q(h(h(a)))` with `h(X) = X` (variable
2001 of the kept clauses). -/
example : Eqs (fun v => 2000 ≤ v) [(ap "h" [.var 2001], .var 2001)] ∧
    Symbols (fun f => f = sy "h" ∨ f = sy "q") [(ap "h" [.var 2001], .var 2001)] some ∧
    rwBuild some (bucketOf (fun _ => 0) (rulesOf wdEx [(ap "h" [.var 2001], .var 2001)])) 20
      (ap "q" [ap "h" [ap "h" [cn "a"]]]) = .ok (ap "q" [cn "a"]) 2 := by
  refine ⟨⟨?_, ?_⟩, ⟨?_, ?_, ?_⟩, ?_⟩
  · intro e he
    simp only [List.mem_singleton] at he; subst he
    exact ⟨⟨[2001], by decide, by simp [ap]⟩, ⟨[2001], by decide, by simp⟩⟩
  · intro e he
    simp only [List.mem_singleton] at he; subst he
    exact ⟨by simp [ap], by simp⟩
  · intro e he
    simp only [List.mem_singleton] at he; subst he
    exact ⟨by simp [ap, funs, funsL, sy], by simp [funs]⟩
  · intro e he f _
    simp only [List.mem_singleton] at he; subst he
    exact ⟨by simp [ap], by simp⟩
  · intro t t' e hf; cases e; exact hf
  · have : rulesOf wdEx [(ap "h" [.var 2001], .var 2001)] = [(ap "h" [.var 2001], .var 2001)] := by
      have e : orderEq wdEx (ap "h" [.var 2001]) (.var 2001) = 1 := by decide +kernel
      simp [rulesOf, ruleOf, e]
    rw [this]; rfl

/-! ## C20 -/

/-- computing does not make terms bigger in the order -/
def EvShrinks (ev : Term → Option Term) : Prop :=
  ∀ t t', ev t = some t' → t = t' ∨ (VarLe t' t ∧ size t' < size t)

theorem oriented {V : Nat → Prop} {wd : Const → Int} {eqs : List (Term × Term)} {ev : Term → Option Term}
    (h : Term → Nat) (he : Eqs V eqs) (hev : EvShrinks ev) : Oriented wd ev (bucketOf h (rulesOf wd eqs)) V where
  gt _ _ _ hm := rule_gt he hm
  own _ _ _ hm := (rule_few he hm).2.2
  ev t t' e := by
    rcases hev t t' e with h | ⟨h1, h2⟩
    · exact Or.inl h
    · exact Or.inr ⟨h1, Or.inl h2⟩

/-- C20: rewriting any term with any stored equations finishes: from some recursion budget on,
the outcome no longer depends on the budget and is not "out of budget". -/
theorem C20_rewriting_terminates {V : Nat → Prop} {wd : Const → Int} {K : Int} {eqs : List (Term × Term)}
    {ev : Term → Option Term} (h : Term → Nat) (hw : WordInj wd) (hK : ∀ c, wd c ≤ K) (he : Eqs V eqs)
    (hev : EvShrinks ev) (x : Term) (hx : ∀ v ∈ vars x, ¬ V v) :
    ∃ o, o ≠ .fuel ∧ ∃ N, ∀ n, N ≤ n → rwBuild ev (bucketOf h (rulesOf wd eqs)) n x = o :=
  rwBuild_conv (oriented h he hev) hw hK x hx

/-- One rewrite step: some subterm that is an instance of the bigger side of a kept equation is
replaced by the instance of the smaller side. -/
inductive RwStep (wd : Const → Int) (eqs : (Term × Term) → Prop) : Term → Term → Prop
  | root {a b : Term} (θ : Nat → Term) : (eqs (a, b) ∨ eqs (b, a)) → orderEq wd a b = 1 →
      RwStep wd eqs (subst θ a) (subst θ b)
  | arg {s t : Term} (f : Const) (pre post : List Term) : RwStep wd eqs s t →
      RwStep wd eqs (.app f (pre ++ s :: post)) (.app f (pre ++ t :: post))

/-- C20: for every finite or infinite set of equations there is no infinite sequence of rewrite
steps. -/
theorem C20_no_infinite_rewriting {wd : Const → Int} {K : Int} (hw : WordInj wd) (hK : ∀ c, wd c ≤ K)
    (eqs : (Term × Term) → Prop) (hf : ∀ e, eqs e → Few (vars e.1) ∧ Few (vars e.2)) (q : Nat → Term) :
    ∃ n, ¬ RwStep wd eqs (q n) (q (n + 1)) := by
  have hgt : ∀ s t, RwStep wd eqs s t → Gt wd s t := by
    intro s t h
    induction h with
    | root θ h1 h2 =>
      refine Gt.subst ?_ θ
      rcases h1 with h1 | h1
      · exact (orderEq_gt (hf _ h1).1 (hf _ h1).2).1 h2
      · exact (orderEq_gt (hf _ h1).2 (hf _ h1).1).1 h2
    | arg f pre post _ ih => exact ih.arg f pre post
  refine Classical.byContradiction fun hc => ?_
  have hc' : ∀ n, RwStep wd eqs (q n) (q (n + 1)) := fun n => Classical.byContradiction fun e => hc ⟨n, e⟩
  have key : ∀ t, Acc (fun x y => Gt wd y x) t → ∀ n, q n = t → False := by
    intro t ht
    induction ht with
    | intro t _ ih => intro n e; exact ih (q (n + 1)) (e ▸ hgt _ _ (hc' n)) (n + 1) rfl
  exact key _ ((gt_wf hw hK).apply (q 0)) 0 rfl

/-- C20: the result is the term itself or smaller in the prover's order. -/
theorem C20_result_not_bigger {V : Nat → Prop} {wd : Const → Int} {eqs : List (Term × Term)}
    {ev : Term → Option Term} (h : Term → Nat) (hw : WordInj wd) (he : Eqs V eqs) (hev : EvShrinks ev)
    {x y : Term} {n k : Nat} (hx : ∀ v ∈ vars x, ¬ V v) (hxf : Few (vars x))
    (hr : rwBuild ev (bucketOf h (rulesOf wd eqs)) n x = .ok y k) : y = x ∨ orderEq wd x y = 1 := by
  rcases ((rw_rel ((oriented h he hev).rel hw) n).1 x y k hr hx).2 with e | e
  · exact Or.inl e.symm
  · exact Or.inr ((orderEq_gt hxf (hxf.sub (fun v hv => VarLe.mem e.1 hv))).2 e)

/-- C20: when no computing is done, no stored equation applies any more to any subterm of the
result. -/
theorem C20_result_irreducible {V : Nat → Prop} {wd : Const → Int} {eqs : List (Term × Term)}
    (h : Term → Nat) (he : Eqs V eqs) {x y : Term} {n k : Nat}
    (hr : rwBuild some (bucketOf h (rulesOf wd eqs)) n x = .ok y k) :
    ∀ u ∈ subterms y, ∀ a b, ((a, b) ∈ eqs ∨ (b, a) ∈ eqs) → orderEq wd a b = 1 → ¬ ∃ θ, subst θ a = u := by
  intro u hu a b hab ho
  have hfew : ∀ a b, ((a, b) ∈ eqs ∨ (b, a) ∈ eqs) → Few (vars a) ∧ Few (vars b) := by
    rintro a b (h1 | h1)
    · exact he.few _ h1
    · exact ⟨(he.few _ h1).2, (he.few _ h1).1⟩
  have key := (rw_irred (R := bucketOf h (rulesOf wd eqs))
    (rules := fun p => (p ∈ eqs ∨ (p.2, p.1) ∈ eqs) ∧ orderEq wd p.1 p.2 = 1) ?_ ?_ ?_ n).1 x y k hr
  · exact key u hu a b ⟨hab, ho⟩
  · rintro l r ⟨h1, h2⟩
    simp only [bucketOf, rulesOf, List.mem_filter, List.mem_filterMap, beq_self_eq_true, and_true]
    rcases h1 with h1 | h1
    · exact ⟨_, h1, by simp only at h2; simp [ruleOf, h2]⟩
    · have h3 := (C21_never_both wd l r).1.1 h2
      exact ⟨_, h1, by simp [ruleOf, h3]⟩
  · rintro l r ⟨h1, h2⟩ v rfl
    obtain ⟨f1, f2⟩ := hfew _ _ h1
    obtain ⟨_, h5 | ⟨_, h5⟩⟩ := (orderEq_gt f1 f2).1 h2
    · have := size_pos r; simp at h5; omega
    · cases r <;> simp [lexOrder] at h5
      split at h5 <;> simp at h5
  · intro key l r hm c hl
    subst hl
    obtain ⟨d, hd, _⟩ := gt_const (rule_gt he hm)
    exact ⟨d, hd⟩

/-- `some` (no computing) satisfies the assumptions about computing. -/
example : EvShrinks some := by intro t t' e; cases e; exact Or.inl rfl

example : WordInj wdEx ∧ (∀ c, wdEx c ≤ 0) := ⟨wdEx_inj, wdEx_le⟩

end Gkc.Props
