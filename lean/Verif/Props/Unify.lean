import Verif.UnifyLemmas
/- Property theorems C06-C09: term equality, matching, unification, undoing of bindings. -/
namespace Gkc.Props
open Gkc Term

/-- example symbols -/
def sy (s : String) : Const := .sym s
/-- `s(args)` -/
def ap (s : String) (args : List Term) : Term := .app (.sym s) args
/-- constant `s` -/
def cn (s : String) : Term := .const (.sym s)

/-! ## C06 -/

/-- C06: the term equality test answers yes exactly for identical terms. -/
theorem C06_equal_term_decides (s t : Term) : eqTerm s t = true ↔ s = t := eqTerm_iff s t

example : eqTerm (ap "f" [.var 1, .const (.int 5)]) (ap "f" [.var 1, .const (.int 5)]) = true ∧
    eqTerm (ap "f" [.var 1]) (ap "f" [.var 2]) = false := by decide

/-- Renaming of variables to their number within the bank. -/
def inBank (t : Term) : Term := subst (fun v => .var (v % 1000)) t

/-- C06: the variant of the test that ignores variable banks answers yes exactly for terms
that are identical after every variable is replaced by its number within its bank. -/
theorem C06_equal_mod_banks (s t : Term) : eqModVars s t = true ↔ inBank s = inBank t := by
  revert t
  induction s using ind with
  | hv v => intro t; cases t <;> simp [eqModVars, inBank]
  | hc c => intro t; cases t <;> simp [eqModVars, inBank]
  | ha f as ih =>
    intro t
    have key : ∀ (as : List Term), (∀ a ∈ as, ∀ t, eqModVars a t = true ↔ inBank a = inBank t) →
        ∀ bs, as.length = bs.length →
        (eqModVarsL as bs = true ↔ as.map inBank = bs.map inBank) := by
      intro as
      induction as with
      | nil => intro _ bs h; cases bs <;> simp_all [eqModVarsL]
      | cons a as ih =>
        intro h bs hl
        cases bs with
        | nil => simp at hl
        | cons b bs =>
          have h1 := h a List.mem_cons_self b
          have h2 := ih (fun s hs => h s (List.mem_cons_of_mem _ hs)) bs (by simpa using hl)
          simp only [eqModVarsL, List.map_cons, List.cons.injEq]
          rcases Bool.eq_false_or_eq_true (eqModVars a b) with e | e
          · rw [if_neg (by simp [e]), h2]; simp [h1.1 e]
          · have : inBank a ≠ inBank b := fun hh => by rw [h1.2 hh] at e; cases e
            simp [e, this]
    cases t with
    | var v => simp [eqModVars, inBank]
    | const c => simp [eqModVars, inBank]
    | app g bs =>
      simp only [eqModVars, inBank, subst_app, Term.app.injEq]
      by_cases hl : as.length = bs.length
      · by_cases hf : f = g
        · simp only [hl, hf, bne_self_eq_false, Bool.false_eq_true, if_false, true_and]
          exact key as ih bs hl
        · simp [hl, hf]
      · have : as.map (subst fun v => .var (v % 1000)) ≠ bs.map (subst fun v => .var (v % 1000)) :=
          fun h => hl (by simpa using congrArg List.length h)
        simp [hl, this]

example : eqModVars (ap "f" [.var 1001]) (ap "f" [.var 2001]) = true ∧
    eqModVars (ap "f" [.var 1001]) (ap "f" [.var 2002]) = false := by decide

/-! ## C07 -/

/-- C07: when matching succeeds, the values assigned turn the general term into the specific
one; every variable of the general term has a value; nothing else is assigned and values
assigned before the call are kept. -/
theorem C07_match_sound (x y : Term) (st s : St) (h : matchT st x y = .ok s) :
    (∀ v ∈ vars x, ∃ t, s.b v = some t) ∧ subst s.val x = y ∧
    (∀ v, v ∉ vars x → s.b v = st.b v) ∧ (∀ v t, st.b v = some t → s.b v = some t) := by
  obtain ⟨h1, h2, h3⟩ := matchT_sound x st y s h
  refine ⟨fun v hv => Option.ne_none_iff_exists'.1 (h1 v hv), h2, h3, ?_⟩
  intro v t hv
  exact (matchT_ext st x y s (by rw [h]; rfl)).mono hv

/-- C07: if some substitution that agrees with the values already assigned turns `x` into
`y`, matching succeeds, and the values it assigns are those of that substitution. -/
theorem C07_match_complete (x y : Term) (st : St) (θ : Nat → Term)
    (ha : ∀ v t, st.b v = some t → θ v = t) (hm : subst θ x = y) :
    ∃ s, matchT st x y = .ok s ∧ ∀ v t, s.b v = some t → θ v = t := by
  subst hm; exact matchT_complete x st θ ha

/-- C07 (partial): from a clear state, matching decides whether `y` is an instance of `x`.
Missing: general terms containing numbers or short strings, see
`C07_match_number_against_record`. -/
theorem C07_match_decides_partial (x y : Term) (hn : hasNum x = false) :
    ((∃ s, matchT St.empty x y = .ok s) ∧ (∃ θ, subst θ x = y)) ∨
    ((∃ s, matchT St.empty x y = .fail s) ∧ ¬ ∃ θ, subst θ x = y) := by
  by_cases hx : ∃ θ, subst θ x = y
  · left
    obtain ⟨θ, hθ⟩ := hx
    obtain ⟨s, hs, _⟩ := C07_match_complete x y St.empty θ (by simp [St.empty]) hθ
    exact ⟨⟨s, hs⟩, θ, hθ⟩
  · right
    refine ⟨?_, hx⟩
    cases hm : matchT St.empty x y with
    | ok s => exact absurd ⟨_, (C07_match_sound x y _ s hm).2.1⟩ hx
    | fail s => exact ⟨s, rfl⟩
    | ub => exact absurd hm (matchT_no_ub _ x y hn)

/-- C07: without the restriction on constants, an answer (yes or no) of the matcher is still
right; the only other outcome is the memory error. -/
theorem C07_match_answer_right (x y : Term) (s : St) :
    (matchT St.empty x y = .ok s → ∃ θ, subst θ x = y) ∧
    (matchT St.empty x y = .fail s → ¬ ∃ θ, subst θ x = y) := by
  refine ⟨fun h => ⟨_, (C07_match_sound x y _ s h).2.1⟩, ?_⟩
  rintro h ⟨θ, hθ⟩
  obtain ⟨s', hs', _⟩ := C07_match_complete x y St.empty θ (by simp [St.empty]) hθ
  rw [h] at hs'; cases hs'

/-- C07 fails: matching the general term `p(X, 1000000000000)` against `p(a, f(b))` uses the
number as a record address. -/
theorem C07_match_number_against_record :
    matchT St.empty (ap "p" [.var 1, .const (.int 1000000000000)])
      (ap "p" [cn "a", ap "f" [cn "b"]]) = .ub := by rfl

example : hasNum (ap "p" [.var 1, .var 1, cn "a"]) = false ∧
    ∃ θ, subst θ (ap "p" [.var 1, .var 1, cn "a"]) =
      ap "p" [ap "f" [.var 7], ap "f" [.var 7], cn "a"] :=
  ⟨by decide, fun _ => ap "f" [.var 7], by rfl⟩

example : ∃ s, matchT St.empty (ap "p" [.var 1, .var 1]) (ap "p" [cn "a", cn "b"]) = .fail s :=
  ⟨_, rfl⟩

/-! ## C08 -/

/-- `θ` is a unifier of `x` and `y`. -/
def Unifier (θ : Nat → Term) (x y : Term) : Prop := subst θ x = subst θ y

/-- `θ` is a most general unifier: every unifier factors through it. -/
def Mgu (θ : Nat → Term) (x y : Term) : Prop :=
  Unifier θ x y ∧ ∀ τ, Unifier τ x y → ∃ ρ : Nat → Term, ∀ v, τ v = subst ρ (θ v)

/-- The substitution that the bindings denote: bound variables are replaced until only unbound
variables remain. -/
def Denotes (st : St) (θ : Nat → Term) : Prop :=
  (∀ v, st.b v = none → θ v = .var v) ∧ ∀ v t, st.b v = some t → θ v = subst θ t

/-- C08: unification started with no bindings ends (some number of steps suffices) for every
pair of terms. -/
theorem C08_unify_terminates (x y : Term) : ∃ n r, unify n St.empty x y = some r := by
  have : ∃ N, (∀ w ∈ vars x, w < N) ∧ ∀ w ∈ vars y, w < N := by
    have bd : ∀ l : List Nat, ∃ N, ∀ w ∈ l, w < N := by
      intro l
      induction l with
      | nil => exact ⟨0, by simp⟩
      | cons a l ih =>
        obtain ⟨N, h⟩ := ih
        refine ⟨max N (a + 1), ?_⟩
        intro w hw
        cases hw with
        | head => omega
        | tail _ hw => have := h w hw; omega
    obtain ⟨N1, h1⟩ := bd (vars x)
    obtain ⟨N2, h2⟩ := bd (vars y)
    exact ⟨max N1 N2, fun w hw => by have := h1 w hw; omega,
      fun w hw => by have := h2 w hw; omega⟩
  obtain ⟨N, h1, h2⟩ := this
  exact unify_total St.empty (by intro v t h; simp [St.empty] at h)
    ⟨fun _ => 0, by rintro v w ⟨t, ht, _⟩; simp [St.empty] at ht⟩ x y h1 h2

/-- Acyclic bindings: no variable occurs in its own value, directly or through other values. -/
def NoCycle (st : St) : Prop :=
  ∃ rank : Nat → Nat, ∀ v t, st.b v = some t → ∀ w ∈ vars t, rank w < rank v

/-- C08: unification ends from every acyclic set of bindings over finitely many variables. -/
theorem C08_unify_terminates_from (N : Nat) (st : St) (x y : Term) (hc : NoCycle st)
    (hb : ∀ v t, st.b v = some t → v < N ∧ ∀ w ∈ vars t, w < N)
    (hx : ∀ w ∈ vars x, w < N) (hy : ∀ w ∈ vars y, w < N) : ∃ n r, unify n st x y = some r := by
  obtain ⟨rank, h⟩ := hc
  exact unify_total st hb ⟨rank, by rintro v w ⟨t, ht, hw⟩; exact h v t ht w hw⟩ x y hx hy

/-- C08: unification, successful or not, keeps the bindings acyclic. -/
theorem C08_unify_acyclic (n : Nat) (st st' : St) (x y : Term) (r : Bool) (hc : NoCycle st)
    (h : unify n st x y = some (r, st')) : NoCycle st' := by
  obtain ⟨rank, hk⟩ := hc
  obtain ⟨rank', h'⟩ := (unify_spec n st x y r st' h).2.1
    ⟨rank, by rintro v w ⟨t, ht, hw⟩; exact hk v t ht w hw⟩
  exact ⟨rank', fun v t ht w hw => h' v w ⟨t, ht, hw⟩⟩

example : NoCycle (St.empty.set 1 (ap "f" [.var 2])) :=
  ⟨fun v => if v = 1 then 1 else 0, by
    intro v t ht w hw
    simp only [St.set, St.empty] at ht
    split at ht
    · rename_i e
      simp only [Option.some.injEq] at ht; subst ht
      simp [ap] at hw; subst hw; simp [e]
    · cases ht⟩

/-- C08: the answer does not depend on how long we wait. -/
theorem C08_unify_deterministic (x y : Term) (n m : Nat) (st : St) (r r' : Bool × St)
    (h : unify n st x y = some r) (h' : unify m st x y = some r') : r = r' := by
  have e1 := unify_mono h (Nat.le_max_left n m)
  have e2 := unify_mono h' (Nat.le_max_right n m)
  rw [e1] at e2; exact Option.some.inj e2

/-- C08: on success the bindings denote a substitution, and it is a most general unifier. -/
theorem C08_unify_mgu (n : Nat) (x y : Term) (st : St)
    (h : unify n St.empty x y = some (true, st)) : ∃ θ, Denotes st θ ∧ Mgu θ x y := by
  obtain ⟨_, p2, p3, _⟩ := unify_spec _ _ _ _ _ _ h
  have hc : Acyclic st.b :=
    p2 ⟨fun _ => 0, by rintro v w ⟨t, ht, _⟩; simp [St.empty] at ht⟩
  obtain ⟨θ, hs, hn, hg⟩ := hc.solution
  refine ⟨θ, ⟨hn, hs⟩, ((p3 rfl θ).1 hs).2, ?_⟩
  intro τ hτ
  refine ⟨τ, hg τ ((p3 rfl τ).2 ⟨?_, hτ⟩)⟩
  intro v t hv; simp [St.empty] at hv

/-- C08: on failure there is no unifier. -/
theorem C08_unify_fails_only_without_unifier (n : Nat) (x y : Term) (st : St)
    (h : unify n St.empty x y = some (false, st)) : ¬ ∃ θ, Unifier θ x y := by
  obtain ⟨_, _, _, p4⟩ := unify_spec _ _ _ _ _ _ h
  rintro ⟨θ, hθ⟩
  exact p4 rfl θ (by intro v t hv; simp [St.empty] at hv) hθ

/-- C08, with bindings already present: the solutions of the bindings after a successful call
are exactly the earlier solutions that unify the two terms; after a failed call, no earlier
solution does. -/
theorem C08_unify_incremental (n : Nat) (x y : Term) (st st' : St) (r : Bool)
    (h : unify n st x y = some (r, st')) :
    (r = true → ∀ θ, (∀ v t, st'.b v = some t → θ v = subst θ t) ↔
      ((∀ v t, st.b v = some t → θ v = subst θ t) ∧ Unifier θ x y)) ∧
    (r = false → ∀ θ, (∀ v t, st.b v = some t → θ v = subst θ t) → ¬ Unifier θ x y) := by
  obtain ⟨_, _, p3, p4⟩ := unify_spec _ _ _ _ _ _ h
  exact ⟨p3, p4⟩

/-- test: `p(X, f(X))` and `p(g(Y), Z)` unify; `X` and `f(X)` do not -/
example : (∃ st, unify 5 St.empty (ap "p" [.var 1, ap "f" [.var 1]])
      (ap "p" [ap "g" [.var 2], .var 3]) = some (true, st)) ∧
    (∃ st, unify 5 St.empty (ap "p" [.var 1, .var 1]) (ap "p" [.var 2, ap "f" [.var 2]])
      = some (false, st)) := ⟨⟨_, rfl⟩, ⟨_, rfl⟩⟩

/-! ## C09 -/

/-- Operations on the bindings between two clears. -/
inductive BOp
  | unify (fuel : Nat) (x y : Term)
  | mtch (x y : Term)
  | clearTo (k : Nat)

/-- Effect of an operation, whatever its answer; `none`: out of fuel or memory error. -/
def BOp.run (st : St) : BOp → Option St
  | .unify n x y => (Gkc.unify n st x y).map (·.2)
  | .mtch x y => (matchT st x y).st?
  | .clearTo k => if k ≤ st.trail.length then some (st.clearTo k) else none

/-- Effect of a sequence of operations. -/
def BOp.runs (st : St) : List BOp → Option St
  | [] => some st
  | o :: os => match o.run st with
    | none => none
    | some st' => BOp.runs st' os

theorem inv_clearTo {st : St} (h : St.Inv st) (k : Nat) : St.Inv (st.clearTo k) := by
  have hsplit := List.take_append_drop (st.trail.length - k) st.trail
  have hnd := h.1
  rw [← hsplit, List.nodup_append] at hnd
  refine ⟨hnd.2.1, ?_⟩
  intro v
  have hv := h.2 v
  rw [← hsplit, List.mem_append] at hv
  simp only [St.clearTo, St.unset]
  by_cases h1 : v ∈ st.trail.take (st.trail.length - k)
  · have h2 : v ∉ st.trail.drop (st.trail.length - k) := fun h2 => hnd.2.2 v h1 v h2 rfl
    simp [h1, h2]
  · simp [h1] at hv ⊢; exact hv

theorem inv_run {st : St} (h : St.Inv st) (o : BOp) (st' : St) (hr : o.run st = some st') :
    St.Inv st' := by
  cases o with
  | unify n x y =>
    simp only [BOp.run, Option.map_eq_some_iff] at hr
    obtain ⟨⟨r, s⟩, e, rfl⟩ := hr
    exact h.ext (unify_spec _ _ _ _ _ _ e).1
  | mtch x y => exact h.ext (matchT_ext st x y st' hr)
  | clearTo k =>
    simp only [BOp.run] at hr
    split at hr
    · simp only [Option.some.injEq] at hr; subst hr; exact inv_clearTo h k
    · cases hr

/-- C09: after any sequence of successful or failed unifications and matches and partial
clears, clearing leaves every variable unbound and the stack empty. -/
theorem C09_clear_restores (ops : List BOp) (st : St) (h : BOp.runs St.empty ops = some st) :
    st.clear = St.empty := by
  suffices H : ∀ (ops : List BOp) (s0 : St), St.Inv s0 → BOp.runs s0 ops = some st → St.Inv st from
    (H ops St.empty St.Inv.empty h).clear
  intro ops
  induction ops with
  | nil => intro s0 h0 h; simp [BOp.runs] at h; subst h; exact h0
  | cons o os ih =>
    intro s0 h0 h
    simp only [BOp.runs] at h
    split at h
    · cases h
    · rename_i s1 e; exact ih s1 (inv_run h0 o s1 e) h

/-- C09: undoing the part of the stack pushed by one unification or match, successful or
not, restores exactly the bindings before it. -/
theorem C09_clear_slice_restores (st st' : St) :
    (∀ n x y r, unify n st x y = some (r, st') → st'.clearTo st.trail.length = st) ∧
    (∀ x y, (matchT st x y).st? = some st' → st'.clearTo st.trail.length = st) :=
  ⟨fun n x y r h => (unify_spec n st x y r st' h).1.clearTo,
   fun x y h => (matchT_ext st x y st' h).clearTo⟩

theorem nodup_length_le : ∀ (N : Nat) (l : List Nat), l.Nodup → (∀ v ∈ l, v < N) → l.length ≤ N := by
  intro N
  induction N with
  | zero =>
    intro l _ h
    cases l with
    | nil => simp
    | cons a l => have := h a List.mem_cons_self; omega
  | succ N ih =>
    intro l hd h
    have h1 := ih (l.filter (· != N)) (hd.filter _) (by
      intro v hv
      simp only [List.mem_filter, bne_iff_ne, ne_eq] at hv
      have := h v hv.1; omega)
    have h2 : l.length ≤ (l.filter (· != N)).length + 1 := by
      clear ih h1
      induction l with
      | nil => simp
      | cons a l ihl =>
        rw [List.nodup_cons] at hd
        by_cases ha : a = N
        · subst ha
          have : l.filter (· != a) = l := by
            rw [List.filter_eq_self]
            intro v hv
            simp only [bne_iff_ne, ne_eq]
            intro e; subst e; exact hd.1 hv
          simp [this]
        · have := ihl hd.2 (fun v hv => h v (List.mem_cons_of_mem _ hv))
          have hb : (a != N) = true := by simpa using ha
          simp only [List.filter_cons, hb, if_true, List.length_cons]; omega
    omega

/-- C09: the stack never holds more entries than there are variable cells, so the fixed
stack (as many entries as cells, glb.c:837) does not overflow. -/
theorem C09_stack_bounded (N : Nat) (ops : List BOp) (st : St)
    (h : BOp.runs St.empty ops = some st) (hN : ∀ v, st.b v ≠ none → v < N) :
    st.trail.length ≤ N := by
  have hinv : St.Inv st := by
    suffices H : ∀ (ops : List BOp) (s0 : St), St.Inv s0 → BOp.runs s0 ops = some st →
        St.Inv st from H ops St.empty St.Inv.empty h
    intro ops
    induction ops with
    | nil => intro s0 h0 h; simp [BOp.runs] at h; subst h; exact h0
    | cons o os ih =>
      intro s0 h0 h
      simp only [BOp.runs] at h
      split at h
      · cases h
      · rename_i s1 e; exact ih s1 (inv_run h0 o s1 e) h
  exact nodup_length_le N st.trail hinv.1 (fun v hv => hN v ((hinv.2 v).1 hv))

example : ∃ st, BOp.runs St.empty [.unify 5 (ap "p" [.var 1, cn "a"]) (ap "p" [cn "c", cn "b"]),
    .mtch (.var 2) (cn "a")] = some st ∧ st.trail = [2, 1] := ⟨_, rfl, rfl⟩

end Gkc.Props
