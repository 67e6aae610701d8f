import Verif.Saturate
import Verif.Props.Roles
import Verif.Props.Cuts
import Verif.Props.ArithSem
import Verif.PropInstLemmas
import Verif.Props.InstGen
/- Property theorems C33: what the saturation loop reports follows from the input. -/
namespace Gkc.Props
open Gkc Term

/-! ### Addresses -/

theorem Sep.perm {a b : List ALit} (h : Sep a) (hp : b.Perm a) : Sep b := by
  refine hp.symm.pairwise h ?_
  intro x y hxy e
  obtain ⟨h1, h2⟩ := hxy e.symm
  exact ⟨h2 ▸ h1, h2.symm⟩

theorem Sep.get {cl : List ALit} (h : Sep cl) {i j : Nat} {x y : ALit} (hi : cl[i]? = some x) (hj : cl[j]? = some y)
    (hij : i ≠ j) (e : x.addr = y.addr) : isRec x.atom = false ∧ x.atom = y.atom := by
  rw [Sep, List.pairwise_iff_getElem] at h
  obtain ⟨hi1, rfl⟩ := List.getElem?_eq_some_iff.1 hi
  obtain ⟨hj1, rfl⟩ := List.getElem?_eq_some_iff.1 hj
  rcases Nat.lt_or_ge i j with hlt | hge
  · exact h i j hi1 hj1 hlt e
  · obtain ⟨h1, h2⟩ := h j i hj1 hi1 (by omega) e.symm
    exact ⟨h2 ▸ h1, h2.symm⟩

theorem Sep.addrOk {cl : List ALit} (h : Sep cl) : AddrOk cl := by
  intro l hl k hk e
  obtain ⟨i, hi⟩ := List.mem_iff_getElem?.1 hl
  obtain ⟨j, hj⟩ := List.mem_iff_getElem?.1 hk
  by_cases hij : i = j
  · subst hij; rw [hi] at hj; cases hj; rfl
  · exact (Sep.get h hi hj hij e).2

theorem NewCl.tagOk {tag : List Lit → List ALit} (h : ∀ ls, NewCl ls (tag ls)) : TagOk tag :=
  fun ls => ⟨(h ls).1, Sep.addrOk (h ls).2⟩

/-- No constant atom occurs with both signs. -/
def ConstSign (ls : List Lit) : Prop := ∀ l ∈ ls, ∀ k ∈ ls, ∀ c, l.atom = .const c → k.atom = .const c → l.neg = k.neg

theorem oneSign_of {sg : Const → Role} {cl : List ALit} (hs : Sep cl) (hw : WtA sg cl) (hc : ConstSign (plain cl)) :
    OneSign cl := by
  intro l hl k hk e
  obtain ⟨i, hi⟩ := List.mem_iff_getElem?.1 hl
  obtain ⟨j, hj⟩ := List.mem_iff_getElem?.1 hk
  by_cases hij : i = j
  · subst hij; rw [hi] at hj; cases hj; rfl
  · obtain ⟨h1, h2⟩ := Sep.get hs hi hj hij e
    have w := hw l hl
    cases ha : l.atom with
    | var v => rw [ha] at w; exact w.elim
    | app f as => rw [ha] at h1; simp [isRec] at h1
    | const c => exact hc _ (mem_plain hl) _ (mem_plain hk) c ha (by show k.atom = _; rw [← h2, ha])

/-! ### Copies -/

theorem den_empty : Den St.empty.b Term.var :=
  ⟨fun v t h => by simp [St.empty] at h, fun v _ => rfl, fun v t h => by simp [St.empty] at h⟩

theorem built_of_normL {ev : Term → Option Term} {bank : Nat} {names : List Nat} : ∀ {ls r : List Lit},
    r.map Lit.neg = ls.map Lit.neg →
    normL ev (substL (renT bank names) (ls.map (fun l => subst Term.var l.atom))) = some (r.map Lit.atom) →
    (∀ v ∈ varsL (ls.map (fun l => subst Term.var l.atom)), v ∈ names) → Built ev bank names ls r := by
  intro ls
  induction ls with
  | nil =>
    intro r h1 _ _
    cases r with
    | nil => exact .nil
    | cons a r => simp at h1
  | cons l ls ih =>
    intro r h1 h2 h3
    cases r with
    | nil => simp at h1
    | cons a r =>
      simp only [List.map_cons, List.cons.injEq] at h1
      simp only [List.map_cons, substL] at h2
      obtain ⟨b, bs, e1, e2, e3⟩ := normL_cons h2
      simp only [List.cons.injEq] at e3
      simp only [List.map_cons, varsL, List.mem_append] at h3
      rw [subst_id] at e1 h3
      refine .cons ⟨h1.1, by rw [e1, e3.1], fun v hv => h3 v (.inl hv)⟩ (ih h1.2 (by rw [e2, e3.2]) (fun v hv => h3 v (.inr hv)))

theorem copyLits_notruth {ev : Term → Option Term} {bank n : Nat} : ∀ {ls r : List Lit} {s s' : BSt},
    copyLits ev bank n s ls = .ok r s' → ∀ l ∈ r, l.atom ≠ .const aTrue ∧ l.atom ≠ .const aFalse := by
  intro ls
  induction ls with
  | nil => intro r s s' h; simp only [copyLits, ClOut.ok.injEq] at h; rw [← h.1]; simp
  | cons l ls ih =>
    intro r s s' h
    simp only [copyLits] at h
    split at h
    · cases h
    · cases h
    · rename_i a s1 ea
      split at h
      · cases h
      · rename_i h1
        split at h
        · cases h
        · rename_i h2
          split at h
          · rename_i ls' s2 e2
            simp only [ClOut.ok.injEq] at h
            rw [← h.1]
            intro k hk
            rcases List.mem_cons.1 hk with rfl | hk
            · refine ⟨fun e => h2 ?_, fun e => h1 ?_⟩
              · simp only at e; rw [e]; exact (Term.beq_iff _ _).2 rfl
              · simp only at e; rw [e]; exact (Term.beq_iff _ _).2 rfl
            · exact ih e2 k hk
          · rename_i o hno ho
            exact absurd h (by intro e; exact ho _ _ e)

theorem built_const {sg : Const → Role} {ev : Term → Option Term} (he : EvRole sg ev) {bank : Nat} {names : List Nat}
    {ls r : List Lit} (hB : Built ev bank names ls r) (hw : ∀ l ∈ ls, WtAtom sg l.atom)
    (hnt : ∀ l ∈ r, l.atom ≠ .const aTrue ∧ l.atom ≠ .const aFalse) :
    ∀ l' ∈ r, ∃ l ∈ ls, l'.neg = l.neg ∧ ∀ c, l'.atom = .const c → l.atom = .const c := by
  induction hB with
  | nil => simp
  | @cons l l' ls ls' h0 _ ih =>
    intro k hk
    rcases List.mem_cons.1 hk with rfl | hk
    · refine ⟨l, by simp, h0.1, fun c e => ?_⟩
      obtain ⟨n1, n2⟩ := hnt k (by simp)
      have := ((norm_wtAtom he h0.2.1 (renT_wt (hw l (by simp)))).resolve_left n1).resolve_left n2
      have e2 := this.2 c e
      cases ha : l.atom with
      | var v => have := hw l (by simp); rw [ha] at this; exact this.elim
      | const d => rw [ha] at e2; simpa using e2
      | app f as => rw [ha] at e2; simp [Term.subst] at e2
    · obtain ⟨m, hm, e⟩ := ih (fun l hl => hw l (by simp [hl])) (fun l hl => hnt l (by simp [hl])) k hk
      exact ⟨m, by simp [hm], e⟩

/-- what a copy is -/
structure Copied (sg : Const → Role) (bank : Nat) (ls r : List Lit) : Prop where
  wt : WtCl sg bank r
  const : ConstSign ls → ConstSign r
  len : r.length = ls.length

theorem copyCl_spec {sg : Const → Role} {ev : Term → Option Term} (he : EvRole sg ev) {bank n : Nat} {ls r : List Lit} {s' : BSt}
    (h : copyCl ev bank n St.empty ls = .ok r s') (hv : ∀ l ∈ ls, ∀ v ∈ vars l.atom, v < 4000)
    (hw : ∀ l ∈ ls, WtAtom sg l.atom) :
    Copied sg bank ls r ∧ ∀ I : Interp, EvSound I ev → ClTrue I ls → ClTrue I r := by
  obtain ⟨h1, names, hi, _, hn, hvs, _⟩ := copyLits_spec den_empty n ls [] ⟨St.empty, 0⟩ r s' BInv.init hv h
  have hB := built_of_normL h1 hn hvs
  have hnt := copyLits_notruth h
  refine ⟨⟨?_, ?_, ?_⟩, ?_⟩
  · intro l hl
    obtain ⟨a, b⟩ := built_wt he hi.le hB hw l hl
    obtain ⟨n1, n2⟩ := hnt l hl
    exact ⟨(a.resolve_left n1).resolve_left n2, b⟩
  · intro hc
    have key := built_const he hB hw hnt
    intro l hl k hk c e1 e2
    obtain ⟨l', hl', n1, c1⟩ := key l hl
    obtain ⟨k', hk', n2, c2⟩ := key k hk
    rw [n1, n2]
    exact hc l' hl' k' hk' c (c1 c e1) (c2 c e2)
  · have := congrArg List.length h1; simpa using this
  · intro I hev ht ρ
    rw [hB.tr hev]
    exact ht _

/-! ### Literals of simplified and finished clauses -/

theorem simpLoop_mem {rw' : ALit → Out (ALit × Bool)} {us : Units} {m : Term → Nat}
    {bucket : Bool → Term → List (Lit × Lit)} {xcl : List ALit} :
    ∀ {xs : List ALit} {rs r : List Lit} {found chg : Bool}, simpLoop rw' us m bucket xcl found chg rs xs = .ok r →
      ∀ l ∈ r, l ∈ rs ∨ (l.atom ≠ .const aTrue ∧ l.atom ≠ .const aFalse ∧
        ∃ x ∈ xs, ∃ y w, rw' x = .ok (y, w) ∧ l.atom = y.atom) := by
  intro xs
  induction xs with
  | nil =>
    intro rs r found chg h l hl
    simp only [simpLoop] at h
    split at h
    · simp only [SRes.ok.injEq] at h; rw [h]; exact .inl hl
    · cases h
  | cons x xs ih =>
    intro rs r found chg h l hl
    have lift : (l ∈ rs ∨ (l.atom ≠ .const aTrue ∧ l.atom ≠ .const aFalse ∧ ∃ x ∈ xs, ∃ y w, rw' x = .ok (y, w) ∧ l.atom = y.atom)) →
        (l ∈ rs ∨ (l.atom ≠ .const aTrue ∧ l.atom ≠ .const aFalse ∧
          ∃ z ∈ x :: xs, ∃ y w, rw' z = .ok (y, w) ∧ l.atom = y.atom)) := by
      rintro (h | ⟨h1, h2, z, hz, h3⟩)
      · exact .inl h
      · exact .inr ⟨h1, h2, z, .tail _ hz, h3⟩
    simp only [simpLoop] at h
    split at h
    · cases h
    · cases h
    · rename_i y w e
      split at h
      · split at h
        · exact lift (ih h l hl)
        · cases h
      · rename_i ht
        split at h
        · split at h
          · cases h
          · exact lift (ih h l hl)
        · rename_i hf
          split at h
          · cases h
          · split at h
            · exact lift (ih h l hl)
            · split at h
              · exact lift (ih h l hl)
              · rcases ih h l hl with hm | hm
                · rcases List.mem_append.1 hm with hm | hm
                  · exact .inl hm
                  · rw [List.mem_singleton] at hm
                    subst hm
                    refine .inr ⟨fun e' => ht ?_, fun e' => hf ?_, x, by simp, y, w, e, rfl⟩
                    · simp only at e'; rw [e']; exact (Term.beq_iff _ _).2 rfl
                    · simp only at e'; rw [e']; exact (Term.beq_iff _ _).2 rfl
                · exact lift (.inr hm)

theorem doubleLoop_sub {m : Term → Nat} {bucket : Bool → Term → List (Lit × Lit)} {xcl : List ALit} {xs : List ALit}
    {found : Bool} : ∀ l ∈ doubleLoop m bucket xcl found xs, l ∈ xs := by
  rcases doubleLoop_spec (m := m) (bucket := bucket) (xcl := xcl) (xs := xs) (found := found) with h | ⟨_, pre, x, post, e, h, _⟩
  · rw [h]; exact fun l hl => hl
  · rw [h, e]
    intro l hl
    rcases List.mem_append.1 hl with hl | hl
    · simp [hl]
    · simp [hl]

theorem finish_mem {fwd strong sdup : Bool} {us : Units} {n : Nat} {cands : Bool → Term → List Term}
    {m : Term → Nat} {bucket : Bool → Term → List (Lit × Lit)} {tag : List Lit → List ALit} {st : St} {rs r : List Lit}
    (htag : TagOk tag) (hst : Clean st) (h : finish fwd strong sdup us n cands m bucket tag st rs = .ok r) :
    ∀ l ∈ r, l ∈ rs := by
  unfold finish at h
  split at h
  · simp only [Fin.ok.injEq] at h; rw [← h]; simp
  · split at h
    · cases h
    · rename_i fl hcs
      have h1 : ∀ l ∈ removeCuts fl, l ∈ rs := by
        intro l hl
        rw [mem_removeCuts, (cutSubsume_spec fwd us rs).2 fl hcs] at hl
        obtain ⟨k, hk, e⟩ := List.mem_map.1 hl
        simp only [Prod.mk.injEq] at e
        rw [← e.1]; exact hk
      split at h
      · cases h
      · rename_i fl' hsc
        have h2 : ∀ l ∈ removeCuts fl', l ∈ removeCuts fl := by
          split at hsc
          · simp only [Option.map_eq_some_iff] at hsc
            obtain ⟨⟨f, s⟩, hf, rfl⟩ := hsc
            exact (strongCutLoop_spec hst hf).1
          · simp only [Option.some.injEq] at hsc
            rw [hsc]; exact fun l hl => hl
        simp only at h
        split at h
        · simp only [Fin.ok.injEq] at h; rw [← h]; simp
        · split at h
          · cases h
          · rename_i ls' hsd
            have h3 : ∀ l ∈ ls', l ∈ removeCuts fl' := by
              split at hsd
              · exact fun l hl => (C17_removed_are_general _ _ hsd).1.subset hl
              · simp only [Option.some.injEq] at hsd
                rw [hsd]; exact fun l hl => hl
            simp only [Fin.ok.injEq] at h
            rw [← h]
            intro l hl
            obtain ⟨k, hk, rfl⟩ := List.mem_map.1 hl
            have hk' : k ∈ tag ls' := by
              unfold doubleCutCl at hk
              split at hk
              · exact hk
              · exact doubleLoop_sub k hk
            have : k.lit ∈ plain (tag ls') := mem_plain hk'
            rw [(htag ls').1] at this
            exact h1 _ (h2 _ (h3 _ this))

/-! ### The invariant -/

/-- a clause of the queues -/
structure PCl (I : Interp) (sg : Const → Role) (cl : List ALit) : Prop where
  tr : ClTrue I (plain cl)
  wt : WtA sg cl
  sep : Sep cl
  vars : ∀ l ∈ cl, ∀ v ∈ vars l.atom, v < 4000 ∧ ¬ InBank 2 v

/-- a given or active clause -/
structure GCl (I : Interp) (sg : Const → Role) (bank : Nat) (cl : List ALit) : Prop where
  tr : ClTrue I (plain cl)
  wt : WtA sg cl
  sep : Sep cl
  vars : ∀ l ∈ cl, ∀ v ∈ vars l.atom, InBank bank v
  one : OneSign cl

theorem GCl.stored {I : Interp} {sg : Const → Role} {b : Nat} {cl : List ALit} (h : GCl I sg b cl) (hb : b < 4) : Stored cl :=
  ⟨fun l hl v hv => by have := (h.vars l hl v hv).2; omega, Sep.addrOk h.sep⟩

structure SInv (I : Interp) (sg : Const → Role) (s : PState) : Prop where
  passive : ∀ cl ∈ s.passive, PCl I sg cl
  cur : ∀ cl, s.cur = some cl → PCl I sg cl
  given : ∀ cl, s.given = some cl → GCl I sg 1 cl
  active : ∀ cl ∈ s.active, GCl I sg 2 cl
  units : UnitsTrue I s.units
  strong : ∀ b, ∀ t ∈ s.strong b, ClTrue I [⟨b, t⟩]
  doubles : ∀ y ∈ s.doubles, ClTrue I [y.1, y.2]
  eqs : ∀ e ∈ s.eqs, EqTrue I e.1 e.2
  eqsWt : WtEqs sg s.eqs
  answers : ∀ cl ∈ s.answers, ClTrue I cl
  refuted : s.refuted = false
  fed : ∀ x ∈ s.fed, ClTrue I x.2

theorem SInv.kept {I : Interp} {sg : Const → Role} {s : PState} (h : SInv I sg s) {cl : List ALit} (hk : s.Kept cl) :
    ClTrue I (plain cl) := by
  cases hk with
  | passive hk => exact (h.passive cl hk).tr
  | cur hk => exact (h.cur cl hk).tr
  | given hk => exact (h.given cl hk).tr
  | active hk => exact (h.active cl hk).tr

theorem SInv.cuts {I : Interp} {sg : Const → Role} {s : PState} (h : SInv I sg s) {us cands bucket}
    (hc : CutsFrom s us cands bucket) : UnitsTrue I us ∧ CandsTrue I cands ∧ DoublesTrue I bucket := by
  refine ⟨?_, ?_, ?_⟩
  · rintro b t (ht | ht)
    · exact h.units b t (.inl (hc.loc b ht))
    · exact h.units b t (.inr (hc.kb b ht))
  · intro b x t ht; exact h.strong b t (hc.cands b x ht)
  · intro b x y hy; exact h.doubles y (hc.bucket b x hy)

theorem not_nil_true {I : Interp} (h : ClTrue I []) : Nonempty I.D → False := by
  rintro ⟨d⟩
  obtain ⟨l, hl, _⟩ := h (fun _ => d)
  cases hl

/-- clauses stored from literals whose variables are not of bank 2 -/
theorem stores_pcl {I : Interp} {sg : Const → Role} {bank : Nat} (hb : bank < 4) (hb2 : bank ≠ 2) {r : List Lit} {cl : List ALit}
    (hs : Stores bank r cl) (ht : ClTrue I r) (hw : ∀ l ∈ r, WtAtom sg l.atom)
    (hv : ∀ l ∈ r, ∀ v ∈ vars l.atom, v < 4000 ∧ ¬ InBank 2 v) : PCl I sg cl := by
  cases hs with
  | plain h =>
    obtain ⟨h1, h2⟩ := h
    have h1 : plain cl = r := h1
    have key : ∀ l ∈ cl, l.lit ∈ r := fun l hl => h1 ▸ mem_plain hl
    exact ⟨h1 ▸ ht, fun l hl => hw _ (key l hl), h2, fun l hl => hv _ (key l hl)⟩
  | renamed n r' s' hc h =>
    obtain ⟨hcp, htr⟩ := copyCl_spec (EvRole.some sg) hc (fun l hl v hv' => (hv l hl v hv').1) hw
    obtain ⟨h1, h2⟩ := h
    have h1 : plain cl = r' := h1
    have key : ∀ l ∈ cl, l.lit ∈ r' := fun l hl => h1 ▸ mem_plain hl
    refine ⟨h1 ▸ htr I (EvSound.some I) ht, fun l hl => (hcp.wt _ (key l hl)).1, h2, fun l hl v hv' => ?_⟩
    obtain ⟨a, b⟩ := (hcp.wt _ (key l hl)).2 v hv'
    refine ⟨by omega, ?_⟩
    rintro ⟨c, d⟩
    omega

/-! ### Inferences -/

theorem picked_none {θ : Nat → Term} : ∀ {cl : List ALit} {i : Nat} {Ls : List Lit}, Picked θ none none i cl Ls →
    Ls = (plain cl).map (Lit.subst θ) := by
  intro cl
  induction cl with
  | nil => intro i Ls h; cases h; rfl
  | cons l ls ih =>
    intro i Ls h
    cases h with
    | skip hc h => cases hc
    | take hc hi h =>
      rw [ih h]
      simp only [InstOf] at hi
      subst hi
      rfl

/-- the interpretation makes evaluation right, has the truth constants, and `=` means identity -/
structure Fits (c : Cfg) (I : Interp) : Prop where
  ev : EvSound I c.ev
  truth : TruthOk I
  eq : EqInterp I

/-- evaluation keeps to the roles of symbols, numbers are constants -/
structure Roles (c : Cfg) (sg : Const → Role) : Prop where
  ev : EvRole sg c.ev
  num : ∀ k, isNumber k → sg k = .cnst

theorem arith_sound {c : Cfg} {sg : Const → Role} {I : Interp} (hf : Fits c I) (hr : Roles c sg) {x : List ALit} (hx : PCl I sg x)
    {n : Nat} {st : St} {r : List Lit} {s' : BSt} (hst : NumBound isNumber st)
    (h : asmCl c.ev 3 n none none 0 [] ⟨st, 0⟩ x = .ok r s') : ClTrue I r ∧ WtCl sg 3 r := by
  let θ : Nat → Term := fun v => (st.b v).getD (.var v)
  have hθ : Den st.b θ := by
    refine ⟨?_, ?_, ?_⟩
    · intro v t e
      obtain ⟨_, k, _, rfl⟩ := hst v t e
      simp [θ, e]
    · intro v e; simp [θ, e]
    · intro v t e
      obtain ⟨h1, k, _, rfl⟩ := hst v t e
      exact ⟨h1, by simp⟩
  have hw : ∀ v, WtT sg (θ v) := by
    intro v
    cases e : st.b v with
    | none => simp [θ, e, WtT]
    | some t =>
      obtain ⟨_, k, hk, rfl⟩ := hst v t e
      simp only [θ, e, Option.getD_some, WtT]
      exact hr.num k hk
  obtain ⟨Ls, Ns, names, hP, hi, _, hB, hM, _⟩ := asmCl_spec hθ (fun _ _ _ e => by cases e) x 0 [] ⟨st, 0⟩ [] r s' BInv.init
    (fun l hl v hv => (hx.vars l hl v hv).1) h
  have hc : Collected c.ev 3 Ls r := ⟨names, Ns, hi.nodup, hi.le, hB, hM⟩
  have hL := picked_none hP
  subst hL
  refine ⟨(hc.equiv hf.ev hf.truth).2 ?_, collected_wt hr.ev hc ?_⟩
  · intro ρ
    obtain ⟨l, hl, ht⟩ := hx.tr (fun v => eval I ρ (θ v))
    refine ⟨l.subst θ, List.mem_map_of_mem hl, ?_⟩
    rw [Lit.tr_subst]; exact ht
  · intro l hl
    obtain ⟨k, hk, rfl⟩ := List.mem_map.1 hl
    obtain ⟨m, hm, rfl⟩ := List.mem_map.1 hk
    exact (hx.wt m hm).subst (fun v _ => hw v)

theorem infer_sound {c : Cfg} {sg : Const → Role} {I : Interp} (hf : Fits c I) (hr : Roles c sg) {s : PState} (hs : SInv I sg s)
    (hl : ∀ cl ∈ s.active, cl.length ≤ 256) {r : List Lit} (h : Infer c s r) : ClTrue I r ∧ WtCl sg 3 r := by
  cases h with
  | resolve hx hy h =>
    have gx := hs.given _ hx
    have gy := hs.active _ hy
    have sx := gx.stored (by omega)
    have sy := gy.stored (by omega)
    exact ⟨C13_resolution_sound I c.ev hf.ev hf.truth _ _ _ _ _ _ sx sy gx.one gy.one h gx.tr gy.tr,
      resolveInf_wt hr.ev sx sy gx.wt gy.wt h⟩
  | factor hx h =>
    have gx := hs.given _ hx
    have sx := gx.stored (by omega)
    refine ⟨C14_factoring_sound I c.ev hf.ev hf.truth _ _ _ _ _ sx gx.one h ?_ gx.tr, factorInf_wt hr.ev sx gx.wt h⟩
    intro a b ea eb e
    simp only [factorInf] at h
    split at h
    · rename_i hij
      have := (Sep.get gx.sep ea eb (by omega) e).1
      rw [ea, eb] at h
      simp [this] at h
    · cases h
  | reflexive hx h =>
    have gx := hs.given _ hx
    have sx := gx.stored (by omega)
    exact ⟨C14_equality_reflexivity_sound I hf.eq c.ev hf.ev hf.truth _ _ _ _ sx gx.one gx.wt.eqBinary h gx.tr,
      eqReflInf_wt hr.ev sx gx.wt h⟩
  | paraFrom hx hy h =>
    have gx := hs.given _ hx
    have gy := hs.active _ hy
    have sx := gx.stored (by omega)
    have sy := gy.stored (by omega)
    exact ⟨C15_para_from_sound I hf.eq c.ev hf.ev hf.truth _ _ _ _ _ _ _ _ sx sy gx.one gx.wt.eqBinary h gx.tr gy.tr,
      paraFromInf_wt hr.ev sx sy gx.wt gy.wt h⟩
  | @paraInto x y n i j k left r hx hy h =>
    have gx := hs.given _ hx
    have gy := hs.active _ hy
    have sx := gx.stored (by omega)
    have sy := gy.stored (by omega)
    have hi : i ≤ 255 := by
      have := hl _ hy
      simp only [paraIntoInf] at h
      cases e : y[i]? with
      | none => rw [e] at h; simp at h
      | some q => have := (List.getElem?_eq_some_iff.1 e).1; omega
    exact ⟨C15_para_into_sound_partial I hf.eq c.ev hf.ev hf.truth _ _ _ _ hi _ _ _ _ sy sx gy.one gy.wt.eqBinary h gy.tr gx.tr,
      paraIntoInf_wt hr.ev hi sy sx gy.wt gx.wt h⟩
  | @instgen x y cl xl yl n n' b st st' r s' hx hy hxl hyl hu hst hcl h =>
    have gx := hs.given _ hx
    have gy := hs.active _ hy
    have sx := gx.stored (by omega)
    have sy := gy.stored (by omega)
    have hl := leftOver_loose hst (Rng.unify (by intro v t hv; simp [St.empty] at hv) (sx.vars xl hxl) (sy.vars yl hyl) hu)
      (unify_acyclic hu)
    have hq : AllVals (WtT sg) st' := by
      intro v t e
      rcases hst v t e with e | ⟨_, k, _, rfl⟩
      · exact unify_atoms_wt (gx.wt xl hxl) (gy.wt yl hyl) hu v t e
      · trivial
    rcases hcl with rfl | rfl
    · obtain ⟨h1, h2⟩ := instgen_core hl sx.vars h
      exact ⟨h1 I hf.ev hf.truth gx.tr, h2 sg hr.ev hq gx.wt⟩
    · obtain ⟨h1, h2⟩ := instgen_core hl sy.vars h
      exact ⟨h1 I hf.ev hf.truth gy.tr, h2 sg hr.ev hq gy.wt⟩
  | arith hx hst h => exact arith_sound hf hr (hs.cur _ hx) hst h

/-! ### Simplification -/

theorem rwRun_sound {c : Cfg} {sg : Const → Role} {I : Interp} (hf : Fits c I) (hr : Roles c sg) {s : PState} (hs : SInv I sg s)
    {cl : List ALit} (hcl : PCl I sg cl) {rw' : ALit → Out (ALit × Bool)} (h : RwRun c s.eqs cl rw') :
    RwSound I rw' cl ∧ RwAddr rw' cl ∧ ∀ x ∈ cl, ∀ y w, rw' x = .ok (y, w) →
      (y.atom = .const aTrue ∨ y.atom = .const aFalse ∨ WtAtom sg y.atom) ∧ ∀ v ∈ vars y.atom, v ∈ vars x.atom := by
  have key : ∀ x ∈ cl, ∀ y w, rw' x = .ok (y, w) →
      (∀ ρ : Nat → I.D, I.tr (eval I ρ y.atom) ↔ I.tr (eval I ρ x.atom)) ∧
      (y.atom = .const aTrue ∨ y.atom = .const aFalse ∨ WtAtom sg y.atom) ∧ ∀ v ∈ vars y.atom, v ∈ vars x.atom := by
    intro x hx y w e
    obtain ⟨n, k, e1⟩ := (h x hx y w e).1
    exact rw_atom_role hf.eq c.h hs.eqs hs.eqsWt hf.ev hr.ev (hcl.wt x hx) (fun v hv => (hcl.vars x hx v hv).2) e1
  exact ⟨fun x hx y w e => (key x hx y w e).1, fun x hx y w e => (h x hx y w e).2, fun x hx y w e => (key x hx y w e).2⟩

/-- simplified literals -/
theorem simplify_pcl {c : Cfg} {sg : Const → Role} {I : Interp} (hf : Fits c I) (hr : Roles c sg) {s : PState} (hs : SInv I sg s)
    {cl : List ALit} (hcl : PCl I sg cl) {rw' : ALit → Out (ALit × Bool)} (h : RwRun c s.eqs cl rw') {us m cands bucket r}
    (hu : CutsFrom s us cands bucket) (he : simplifyCl rw' us m bucket cl = .ok r) :
    ClTrue I r ∧ (∀ l ∈ r, WtAtom sg l.atom) ∧ ∀ l ∈ r, ∀ v ∈ vars l.atom, v < 4000 ∧ ¬ InBank 2 v := by
  obtain ⟨h1, h2, h3⟩ := rwRun_sound hf hr hs hcl h
  obtain ⟨u1, _, u3⟩ := hs.cuts hu
  have mem : ∀ l ∈ r, WtAtom sg l.atom ∧ ∀ v ∈ vars l.atom, v < 4000 ∧ ¬ InBank 2 v := by
    intro l hl
    obtain ⟨n1, n2, x, hx, y, w, e, ea⟩ := (simpLoop_mem he l hl).resolve_left (by simp)
    obtain ⟨a, b⟩ := h3 x hx y w e
    rw [← ea] at a b
    exact ⟨(a.resolve_left n1).resolve_left n2, fun v hv => hcl.vars x hx v (b v hv)⟩
  refine ⟨?_, fun l hl => (mem l hl).1, fun l hl => (mem l hl).2⟩
  exact (clTrue_iff ((C18_simplify_sound rw' us m bucket cl I hf.truth u1 u3 (Sep.addrOk hcl.sep) h1 h2).1 r he)).2 hcl.tr

theorem simplifyFact_pcl {c : Cfg} {sg : Const → Role} {I : Interp} (hf : Fits c I) (hr : Roles c sg) {s : PState} (hs : SInv I sg s)
    {x : ALit} (hx : x.neg = false) (hcl : PCl I sg [x]) {rw' : ALit → Out (ALit × Bool)} (h : RwRun c s.eqs [x] rw') {r}
    (he : simplifyFact rw' x = .ok r) :
    ClTrue I r ∧ (∀ l ∈ r, WtAtom sg l.atom) ∧ ∀ l ∈ r, ∀ v ∈ vars l.atom, v < 4000 ∧ ¬ InBank 2 v := by
  obtain ⟨h1, _, h3⟩ := rwRun_sound hf hr hs hcl h
  have mem : ∀ l ∈ r, WtAtom sg l.atom ∧ ∀ v ∈ vars l.atom, v < 4000 ∧ ¬ InBank 2 v := by
    intro l hl
    unfold simplifyFact at he
    split at he
    · cases he
    · cases he
    · rename_i y w e
      split at he
      · cases he
      · rename_i ht
        split at he
        · simp only [SRes.ok.injEq] at he; rw [← he] at hl; cases hl
        · rename_i hfa
          split at he
          · simp only [SRes.ok.injEq] at he
            rw [← he, List.mem_singleton] at hl
            subst hl
            obtain ⟨a, b⟩ := h3 x (by simp) y w e
            refine ⟨(a.resolve_left ?_).resolve_left ?_, fun v hv => hcl.vars x (by simp) v (b v hv)⟩
            · intro e'; exact ht (by rw [e']; exact (Term.beq_iff _ _).2 rfl)
            · intro e'; exact hfa (by rw [e']; exact (Term.beq_iff _ _).2 rfl)
          · cases he
  refine ⟨?_, fun l hl => (mem l hl).1, fun l hl => (mem l hl).2⟩
  exact (clTrue_iff ((C18_simplify_fact_sound rw' x hx I hf.truth h1).1 r he)).2 hcl.tr

/-! ### Steps -/

theorem newCl_gcl {I : Interp} {sg : Const → Role} {bank : Nat} {r : List Lit} {g : List ALit} (hg : NewCl r g)
    (hw : WtCl sg bank r) (hc : ConstSign r) (ht : ClTrue I r) : GCl I sg bank g := by
  obtain ⟨h1, h2⟩ := hg
  have h1 : plain g = r := h1
  have key : ∀ l ∈ g, l.lit ∈ r := fun l hl => h1 ▸ mem_plain hl
  have wt : WtA sg g := fun l hl => (hw _ (key l hl)).1
  exact ⟨h1 ▸ ht, wt, h2, fun l hl => (hw _ (key l hl)).2, oneSign_of h2 wt (h1 ▸ hc)⟩

theorem cons_unit {I : Interp} {us : Bool → List Term} {x : ALit} (h : ∀ b, ∀ t ∈ us b, ClTrue I [⟨b, t⟩])
    (hx : ClTrue I (plain [x])) : ∀ b, ∀ t ∈ (if b = x.neg then x.atom :: us b else us b), ClTrue I [⟨b, t⟩] := by
  intro b t ht
  split at ht
  · rename_i e
    rcases List.mem_cons.1 ht with rfl | ht
    · subst e; exact hx
    · exact h b t ht
  · exact h b t ht

theorem eq_args_wt {sg : Const → Role} {x : ALit} {a b : Term} {as : List Term} (hw : WtAtom sg x.atom)
    (ha : x.atom = .app (.sym "=") (a :: b :: as)) : x.atom = .app (.sym "=") [a, b] ∧ WtT sg a ∧ WtT sg b := by
  rw [ha] at hw
  obtain ⟨_, hl, h3⟩ := hw
  have := h3 rfl
  simp only [List.length_cons] at this
  have e : as = [] := List.length_eq_zero_iff.1 (by omega)
  subst e
  exact ⟨ha, hl.1, hl.2.1⟩

theorem step_inv {c : Cfg} {sg : Const → Role} {I : Interp} (hf : Fits c I) (hr : Roles c sg) {s t : PState} (hs : SInv I sg s)
    (hl : ∀ cl ∈ s.active, cl.length ≤ 256) (h : LStep c s t) : SInv I sg t := by
  have hne : Nonempty I.D := ⟨I.cst aTrue⟩
  cases h with
  | pick h hp =>
    have hc := hs.passive _ h
    refine { hs with cur := ?_, given := ?_ }
    · intro cl e
      simp only [Option.some.injEq] at e
      subst e
      refine ⟨fun ρ => ?_, fun l hl => hc.wt l (hp.mem_iff.1 hl), Sep.perm hc.sep hp, fun l hl => hc.vars l (hp.mem_iff.1 hl)⟩
      obtain ⟨l, hl, ht⟩ := hc.tr ρ
      exact ⟨l, (hp.map _).mem_iff.2 hl, ht⟩
    · intro cl e; simp at e
  | simplifyEmpty h hu hrw he =>
    exact absurd hne (fun hn => not_nil_true (simplify_pcl hf hr hs (hs.cur _ h) hrw hu he).1 hn)
  | simplify h hu hrw he hn hst =>
    obtain ⟨h1, h2, h3⟩ := simplify_pcl hf hr hs (hs.cur _ h) hrw hu he
    refine { hs with cur := ?_ }
    intro cl e
    simp only [Option.some.injEq] at e
    subst e
    exact stores_pcl (by omega) (by omega) hst h1 h2 h3
  | simplifyFactEmpty h hx hrw he =>
    exact absurd hne (fun hn => not_nil_true (simplifyFact_pcl hf hr hs hx (hs.cur _ h) hrw he).1 hn)
  | simplifyFact h hx hrw he hn hst =>
    obtain ⟨h1, h2, h3⟩ := simplifyFact_pcl hf hr hs hx (hs.cur _ h) hrw he
    refine { hs with cur := ?_ }
    intro cl e
    simp only [Option.some.injEq] at e
    subst e
    exact stores_pcl (by omega) (by omega) hst h1 h2 h3
  | @activate cl g a n n' r r' s1 s2 h ht h1 hg h2 ha =>
    have hc := hs.cur _ h
    have nb : NoBothSigns cl := C16_tautology_check_admits c.m cl ht
    have cs : ConstSign (plain cl) := by
      intro l hl k hk q e1 e2
      obtain ⟨l', hl', rfl⟩ := List.mem_map.1 hl
      obtain ⟨k', hk', rfl⟩ := List.mem_map.1 hk
      exact nb l' hl' k' hk' (by simp only at e1 e2; rw [e1, e2])
    obtain ⟨c1, t1⟩ := copyCl_spec hr.ev h1
      (fun l hl v hv => by obtain ⟨l', hl', rfl⟩ := List.mem_map.1 hl; exact (hc.vars l' hl' v hv).1)
      (fun l hl => by obtain ⟨l', hl', rfl⟩ := List.mem_map.1 hl; exact hc.wt l' hl')
    have g1 := newCl_gcl hg c1.wt (c1.const cs) (t1 I hf.ev hc.tr)
    obtain ⟨c2, t2⟩ := copyCl_spec hr.ev h2 (fun l hl v hv => by have := ((c1.wt l hl).2 v hv).2; omega)
      (fun l hl => (c1.wt l hl).1)
    have g2 := newCl_gcl ha c2.wt (c2.const (c1.const cs)) (t2 I hf.ev (t1 I hf.ev hc.tr))
    refine { hs with given := ?_, active := ?_ }
    · intro cl' e
      simp only [Option.some.injEq] at e
      exact e ▸ g1
    · intro cl' hm
      rcases List.mem_cons.1 hm with rfl | hm
      · exact g2
      · exact hs.active _ hm
  | deriveEmpty h hu hst htag hfi =>
    obtain ⟨u1, u2, u3⟩ := hs.cuts hu
    have h1 := infer_sound hf hr hs hl h
    have := ((C18_derived_clause_sound _ _ _ _ _ _ _ _ _ _ _ I u1 u2 u3 (NewCl.tagOk htag) hst).1 _ hfi).2 h1.1
    exact absurd hne (fun hn => not_nil_true this hn)
  | derive h hu hst htag hfi hn hsto =>
    obtain ⟨u1, u2, u3⟩ := hs.cuts hu
    have h1 := infer_sound hf hr hs hl h
    have h2 := ((C18_derived_clause_sound _ _ _ _ _ _ _ _ _ _ _ I u1 u2 u3 (NewCl.tagOk htag) hst).1 _ hfi).2 h1.1
    have h3 := finish_mem (NewCl.tagOk htag) hst hfi
    refine { hs with passive := ?_ }
    intro cl hm
    rcases List.mem_cons.1 hm with rfl | hm
    · refine stores_pcl (by omega) (by omega) hsto h2 (fun l hl => (h1.2 l (h3 l hl)).1) (fun l hl v hv => ?_)
      obtain ⟨a, b⟩ := (h1.2 l (h3 l hl)).2 v hv
      refine ⟨by omega, ?_⟩
      rintro ⟨c, d⟩
      omega
    · exact hs.passive _ hm
  | learnUnit h =>
    refine { hs with units := ?_ }
    rintro b t (ht | ht)
    · exact cons_unit (fun b t ht => hs.units b t (.inl ht)) (hs.kept h) b t ht
    · exact hs.units b t (.inr ht)
  | learnUnitKb h =>
    refine { hs with units := ?_ }
    rintro b t (ht | ht)
    · exact hs.units b t (.inl ht)
    · exact cons_unit (fun b t ht => hs.units b t (.inr ht)) (hs.kept h) b t ht
  | learnStrong h => exact { hs with strong := cons_unit hs.strong (hs.kept h) }
  | learnDouble h =>
    refine { hs with doubles := ?_ }
    intro y hy
    rcases List.mem_cons.1 hy with rfl | hy
    · exact hs.kept h
    · exact hs.doubles y hy
  | @learnEq x a b as h hx ha =>
    have hc := hs.active _ h
    obtain ⟨e, wa, wb⟩ := eq_args_wt (hc.wt x (by simp)) ha
    have hv := hc.vars x (by simp)
    rw [e] at hv
    refine { hs with eqs := ?_, eqsWt := ?_ }
    · intro q hq
      rcases List.mem_cons.1 hq with rfl | hq
      · have := hc.tr
        simp only [plain, List.map_cons, List.map_nil, hx, e] at this
        exact this
      · exact hs.eqs q hq
    · intro q hq
      rcases List.mem_cons.1 hq with rfl | hq
      · exact ⟨⟨wa, wb⟩, fun v hv' => hv v (by simp [Term.vars, varsL, hv']), fun v hv' => hv v (by simp [Term.vars, varsL, hv'])⟩
      · exact hs.eqsWt q hq
  | answer h ha =>
    refine { hs with answers := ?_ }
    intro cl hm
    rcases List.mem_cons.1 hm with rfl | hm
    · exact hs.kept h
    · exact hs.answers cl hm
  | propFeed g h =>
    refine { hs with fed := ?_ }
    intro x hm
    rcases List.mem_append.1 hm with hm | hm
    · exact hs.fed x hm
    · rw [List.mem_singleton.1 hm]
      exact hs.kept h
  | propContra h => exact (PropInst.feed_contra_false h hs.fed).elim
  | propSolve h hu => exact (hu (PropInst.feed_file_sat h hs.fed)).elim
  | forget h1 h2 h3 h4 h5 h6 h7 h8 h9 h10 h11 h12 =>
    refine ⟨fun cl hc => hs.passive cl (h1 hc), ?_, ?_, fun cl hc => hs.active cl (h4 hc), ?_, fun b x hx => hs.strong b x (h7 b hx),
      fun y hy => hs.doubles y (h8 hy), fun e he => hs.eqs e (h9 he), fun e he => hs.eqsWt e (h9 he), h10 ▸ hs.answers, h11 ▸ hs.refuted,
      fun x hx => hs.fed x (h12 hx)⟩
    · intro cl e
      rcases h2 with h2 | h2
      · exact hs.cur cl (h2 ▸ e)
      · rw [h2] at e; cases e
    · intro cl e
      rcases h3 with h3 | h3
      · exact hs.given cl (h3 ▸ e)
      · rw [h3] at e; cases e
    · rintro b x (hx | hx)
      · exact hs.units b x (.inl (h5 b hx))
      · exact hs.units b x (.inr (h6 b hx))

/-! ### C33 -/

/-- Input clauses as the parsers store them: every symbol is used in one role, `=` has two
arguments, variables have numbers below 1000, each compound atom is a record of its own. -/
structure InputOk (sg : Const → Role) (cl : List ALit) : Prop where
  roles : ∀ l ∈ cl, WtAtom sg l.atom
  vars : ∀ l ∈ cl, ∀ v ∈ vars l.atom, v < 1000
  sep : Sep cl

/-- no active clause has more than 256 literals -/
def ShortActive (s : PState) : Prop := ∀ cl ∈ s.active, cl.length ≤ 256

theorem run_inv {c : Cfg} {sg : Const → Role} {I : Interp} (hf : Fits c I) (hr : Roles c sg) {input : List (List ALit)}
    (hi : ∀ cl ∈ input, InputOk sg cl) (ht : ∀ cl ∈ input, ClTrue I (plain cl)) {s : PState} (h : Run c ShortActive input s) :
    SInv I sg s ∧ ShortActive s := by
  induction h with
  | start h =>
    refine ⟨⟨?_, ?_, ?_, ?_, ?_, ?_, ?_, ?_, ?_, ?_, rfl, by intro x h; cases h⟩, h⟩
    · intro cl hc
      have := hi cl hc
      refine ⟨ht cl hc, this.roles, this.sep, fun l hl v hv => ?_⟩
      have := this.vars l hl v hv
      exact ⟨by omega, fun ⟨a, b⟩ => by omega⟩
    · intro cl e; cases e
    · intro cl e; cases e
    · intro cl e; cases e
    · rintro b t (h | h) <;> cases h
    · intro b t h; cases h
    · intro y h; cases h
    · intro y h; cases h
    · intro y h; cases h
    · intro y h; cases h
  | step _ hs hp ih => exact ⟨step_inv hf hr ih.1 ih.2 hs, hp⟩

/-- C33 (partial): every clause kept at any moment of any run of the loop, every unit, two-literal
clause and rewrite rule in the indexes, and every reported answer, is true wherever the input
clauses are.  Missing: symbols used in more than one role (see
`C33_shared_symbol_refutes_satisfiable`), active clauses with more than 256 literals (see
`C15_para_into_literal_256_unsound`), and the parts of the loop left out of the model. -/
theorem C33_kept_clauses_follow_partial (c : Cfg) (sg : Const → Role) (hr : Roles c sg) (input : List (List ALit))
    (hi : ∀ cl ∈ input, InputOk sg cl) (s : PState) (h : Run c ShortActive input s) (I : Interp) (hf : Fits c I)
    (ht : ∀ cl ∈ input, ClTrue I (plain cl)) :
    (∀ cl, s.Kept cl → ClTrue I (plain cl)) ∧ (∀ cl ∈ s.answers, ClTrue I cl) ∧
    (∀ b t, t ∈ s.units.loc b ∨ t ∈ s.units.kb b ∨ t ∈ s.strong b → ClTrue I [⟨b, t⟩]) ∧
    (∀ y ∈ s.doubles, ClTrue I [y.1, y.2]) ∧
    (∀ e ∈ s.eqs, ClTrue I [⟨false, .app (.sym "=") [e.1, e.2]⟩]) := by
  obtain ⟨h1, _⟩ := run_inv hf hr hi ht h
  refine ⟨fun cl hk => h1.kept hk, h1.answers, ?_, h1.doubles, h1.eqs⟩
  rintro b t (hb | hb | hb)
  · exact h1.units b t (.inl hb)
  · exact h1.units b t (.inr hb)
  · exact h1.strong b t hb

/-- C33 (partial): if the loop reports a refutation, no interpretation makes the input clauses
true.  Missing: as above. -/
theorem C33_refutation_sound_partial (c : Cfg) (sg : Const → Role) (hr : Roles c sg) (input : List (List ALit))
    (hi : ∀ cl ∈ input, InputOk sg cl) (s : PState) (h : Run c ShortActive input s) (hs : s.refuted = true) :
    ¬ ∃ I : Interp, Fits c I ∧ ∀ cl ∈ input, ClTrue I (plain cl) := by
  rintro ⟨I, hf, ht⟩
  have := (run_inv hf hr hi ht h).1.refuted
  rw [hs] at this
  cases this

/-- C33 (partial), in the usual terms: without computable symbols a reported refutation means
that no structure in which `=` is identity makes all input clauses true.  Missing: as above. -/
theorem C33_refutation_means_unsatisfiable_partial (wd : Const → Int) (hh m : Term → Nat) (sg : Const → Role)
    (hn : ∀ k, isNumber k → sg k = .cnst) (input : List (List ALit)) (hi : ∀ cl ∈ input, InputOk sg cl) (s : PState)
    (h : Run ⟨some, wd, hh, m⟩ ShortActive input s) (hs : s.refuted = true) (M : FO)
    (he : ∀ a b, M.pr (.sym "=") [a, b] ↔ a = b) (h1 : M.pr aTrue []) (h0 : ¬ M.pr aFalse []) :
    ∃ cl ∈ input, ¬ M.holds (plain cl) := by
  by_cases hh : ∃ cl ∈ input, ¬ M.holds (plain cl)
  · exact hh
  · refine absurd ⟨Interp.ofFO M, ⟨EvSound.some _, ⟨h1, h0⟩, ofFO_eqInterp M he⟩, ?_⟩
      (C33_refutation_sound_partial _ sg ⟨EvRole.some sg, hn⟩ input hi s h hs)
    intro cl hc
    refine (ofFO_holds M _ ?_).2 ?_
    · intro l hl v e
      obtain ⟨k, hk, rfl⟩ := List.mem_map.1 hl
      exact ((hi cl hc).roles k hk).nonvar v e
    · by_cases hx : M.holds (plain cl)
      · exact hx
      · exact absurd ⟨cl, hc, hx⟩ hh

/-- reported clauses have only literals of answers -/
theorem answers_only {c : Cfg} {P : PState → Prop} {input : List (List ALit)} {s : PState} (h : Run c P input s) :
    ∀ cl ∈ s.answers, ∀ l ∈ cl, isAnswer l = true := by
  induction h with
  | start => simp [PState.init]
  | step _ hs _ ih =>
    cases hs with
    | answer h ha =>
      intro cl hc l hl
      simp only [List.mem_cons] at hc
      rcases hc with rfl | hc
      · obtain ⟨x, hx, rfl⟩ := List.mem_map.1 hl
        exact ha x hx
      · exact ih cl hc l hl
    | forget h1 h2 h3 h4 h5 h6 h7 h8 h9 h10 h11 h12 => rw [h10]; exact ih
    | _ => exact ih

/-- C33 (partial), answers: in every interpretation making the input clauses true, with `$true`
and `$false` as usual, for all values of the variables some answer literal `$ans(...)` of a reported
answer is true.  Missing: as above. -/
theorem C33_answers_hold_partial (c : Cfg) (sg : Const → Role) (hr : Roles c sg)
    (input : List (List ALit)) (hi : ∀ cl ∈ input, InputOk sg cl) (s : PState)
    (h : Run c ShortActive input s) (I : Interp) (hf : Fits c I)
    (htr : I.tr (I.cst (.sym "$true"))) (hfa : ¬ I.tr (I.cst (.sym "$false")))
    (hin : ∀ cl ∈ input, ClTrue I (plain cl)) (cl : List Lit) (hc : cl ∈ s.answers) (ρ : Nat → I.D) :
    ∃ l ∈ cl, (∃ as, l.atom = .app (.sym "$ans") as) ∧ l.tr I ρ := by
  obtain ⟨l, hl, ht⟩ := (C33_kept_clauses_follow_partial _ sg hr input hi s h I hf hin).2.1 cl hc ρ
  refine ⟨l, hl, ?_, ht⟩
  have ha := answers_only h cl hc l hl
  rcases l with ⟨b, t⟩
  cases t with
  | var v => simp [isAnswer] at ha
  | app f as => simp only [isAnswer, beq_iff_eq] at ha; subst ha; exact ⟨as, rfl⟩
  | const k =>
    exfalso
    cases b
    · simp [isAnswer] at ha; subst ha
      exact hfa (by simpa [Lit.tr, eval] using ht)
    · simp [isAnswer] at ha; subst ha
      exact absurd htr (by simpa [Lit.tr, eval] using ht)

/-! ### The evaluation that the prover has -/

/-- computable symbols giving truth values -/
def givesTruth : Arith.Comp → Bool
  | .equal | .less | .lesseq | .greater | .greatereq | .isInt | .isReal | .isNumber | .isSubstr | .isSubstrat => true
  | _ => false

/-- Numbers are constants, computable symbols giving truth values are predicates, the others are
functions; `$is_list`, `$is_map`, `$is_atom`, `$is_distinct` are among the latter, as they give the
first element of a list (see C36).  A computable symbol that is not used with arguments may also be
counted among the constants. -/
structure ArithRoles (arith : Bool) (sg : Const → Role) : Prop where
  num : ∀ k, isNumber k → sg k = .cnst
  comp : ∀ f c, Arith.computable arith f = some c → sg f = (if givesTruth c then .pred else .func) ∨ sg f = .cnst

theorem res_bool {b : Bool} {t} (h : Arith.Res.bool b = .val t) : t = .const aTrue ∨ t = .const aFalse := by
  cases b <;> simp [Arith.Res.bool] at h <;> simp [h]

/-- a number -/
def NumT (t : Term) : Prop := ∃ k, isNumber k ∧ t = .const k

theorem res_int {i : Int} {t} (h : Arith.Res.int i = .val t) : NumT t := by
  simp [Arith.Res.int] at h; exact ⟨.int i, trivial, h.symm⟩
theorem res_dbl {d} {t} (h : Arith.Res.dbl d = .val t) : NumT t := by
  cases d with
  | inf b => simp [Arith.Res.dbl] at h
  | fin q => simp [Arith.Res.dbl] at h; exact ⟨.dbl (.fin q), trivial, h.symm⟩
theorem res_chk {o} {t} (h : Arith.Res.chk o = .val t) : NumT t := by
  rcases o with _ | (_ | i) <;> simp [Arith.Res.chk] at h; exact res_int h
theorem res_gint {o} {t} (h : Arith.Res.gint o = .val t) : NumT t := by
  unfold Arith.Res.gint at h
  split at h
  · cases h
  · split at h
    · cases h
    · exact res_int h
theorem res_remC {a b} {t} (h : Arith.remC a b = .val t) : NumT t := by
  unfold Arith.remC at h
  split at h
  · exact res_int h
  · exact res_chk h
theorem res_remD {a b} {t} (h : Arith.remD a b = .val t) : NumT t := by
  unfold Arith.remD at h
  split at h
  · split at h
    · cases h
    · exact res_remC h
  · cases h

theorem res_arith2 {c as t} (h : Arith.arith2 c as = .val t) : NumT t := by
  unfold Arith.arith2 at h
  split at h
  · split at h
    · unfold Arith.arith2I at h
      split at h <;> (repeat' split at h) <;>
        first | exact res_chk h | exact res_gint h | exact res_remC h | cases h
    · split at h
      · unfold Arith.arith2D at h
        split at h <;> (repeat' split at h) <;>
          first | exact res_dbl h | exact res_gint h | exact res_remD h | cases h
      · cases h
  · cases h

theorem res_arith1 {c as t} (h : Arith.arith1 c as = .val t) :
    (givesTruth c = true ∧ (t = .const aTrue ∨ t = .const aFalse)) ∨ (givesTruth c = false ∧ NumT t) := by
  unfold Arith.arith1 at h
  split at h
  · split at h <;> (repeat' split at h) <;>
      first
        | exact .inl ⟨rfl, res_bool h⟩
        | exact .inr ⟨rfl, res_int h⟩
        | exact .inr ⟨rfl, res_dbl h⟩
        | exact .inr ⟨rfl, res_chk h⟩
        | cases h
  · split at h <;> (repeat' split at h) <;>
      first
        | exact .inl ⟨rfl, res_bool h⟩
        | exact .inr ⟨rfl, res_int h⟩
        | exact .inr ⟨rfl, res_gint h⟩
        | exact .inr ⟨rfl, .dbl _, trivial, (Arith.Res.val.inj h).symm⟩
        | cases h
  · split at h <;> (repeat' split at h) <;>
      first
        | exact .inl ⟨rfl, res_bool h⟩
        | exact .inr ⟨rfl, res_int h⟩
        | cases h
  · cases h

theorem res_list {b as t} (h : Arith.listFun b as = .val t) : ∃ x y, as = [.app (.sym "$list") [x, y]] ∧ (t = x ∨ t = y) := by
  unfold Arith.listFun at h
  split at h
  · rename_i a
    split at h
    · rename_i x y e
      unfold Arith.listArgs at e
      split at e
      · rename_i x' y'
        injection e with e
        injection e with e1 e2
        subst e1 e2
        refine ⟨_, _, rfl, ?_⟩
        injection h with h
        cases b
        · exact .inr h.symm
        · exact .inl h.symm
      · cases e
    · cases h
  · cases h

theorem res_truth {c as t} (hc : givesTruth c = true) (h : Arith.compute c as = .val t) : t = .const aTrue ∨ t = .const aFalse := by
  have hless : ∀ a b, Arith.lesseqCore a b as = .val t → t = .const aTrue ∨ t = .const aFalse := by
    intro a b h
    unfold Arith.lesseqCore at h
    (repeat' split at h) <;> first | exact res_bool h | cases h
  have h1 : ∀ c, givesTruth c = true → Arith.arith1 c as = .val t → t = .const aTrue ∨ t = .const aFalse := by
    intro c hc h
    rcases res_arith1 h with h | h
    · exact h.2
    · rw [hc] at h; exact absurd h.1 (by decide)
  have hs : ∀ c, Arith.strFun c as = .val t → t = .const aTrue ∨ t = .const aFalse := by
    intro c h
    unfold Arith.strFun at h
    (repeat' split at h) <;> first | exact res_bool h | cases h
  cases c <;> simp [givesTruth] at hc <;> simp only [Arith.compute] at h <;>
    first
      | exact hless _ _ h
      | exact h1 _ rfl h
      | exact hs _ h
      | (unfold Arith.equalFun at h
         (repeat' split at h) <;> first | exact res_bool h | cases h)

theorem res_value {c as t} (hc : givesTruth c = false) (h : Arith.compute c as = .val t) :
    NumT t ∨ ∃ x y, as = [.app (.sym "$list") [x, y]] ∧ (t = x ∨ t = y) := by
  have h1 : ∀ c, givesTruth c = false → Arith.arith1 c as = .val t → NumT t := by
    intro c hc h
    rcases res_arith1 h with h | h
    · rw [hc] at h; exact absurd h.1 (by decide)
    · exact h.2
  cases c <;> simp [givesTruth] at hc <;> simp only [Arith.compute] at h <;>
    first
      | exact .inl (res_arith2 h)
      | exact .inl (h1 _ rfl h)
      | exact .inr (res_list h)

/-- evaluation keeps to the roles -/
theorem evalRec_role {arith : Bool} {sg : Const → Role} (hr : ArithRoles arith sg) : EvRole sg (Arith.evalRec arith) := by
  have key : ∀ f as t', Arith.evalRec arith (.app f as) = some t' → t' = .app f as ∨
      ∃ c, Arith.computable arith f = some c ∧ Arith.compute c as = .val t' := by
    intro f as t' e
    unfold Arith.evalRec Arith.computeRec at e
    simp only at e
    split at e
    · cases e
    · injection e with e; exact .inl e.symm
    · rename_i v hv
      injection e with e
      subst e
      split at hv
      · cases hv
      · rename_i c hc
        exact .inr ⟨c, hc, hv⟩
  have triv : ∀ t t', (∀ f as, t ≠ .app f as) → Arith.evalRec arith t = some t' → t' = t := by
    intro t t' hn e
    cases t with
    | app f as => exact absurd rfl (hn f as)
    | var v => simp [Arith.evalRec, Arith.computeRec] at e; exact e.symm
    | const c => simp [Arith.evalRec, Arith.computeRec] at e; exact e.symm
  refine ⟨?_, ?_, ?_⟩
  · intro t t' hw e
    cases t with
    | app f as =>
      rcases key f as t' e with rfl | ⟨c, hc, hv⟩
      · exact hw
      · simp only [WtT] at hw
        have hs := hr.comp f c hc
        cases hb : givesTruth c with
        | true => rw [hb, hw.1] at hs; simp at hs
        | false =>
          rcases res_value hb hv with ⟨k, hk, rfl⟩ | ⟨x, y, rfl, hxy⟩
          · exact hr.num k hk
          · simp only [WtL, WtT] at hw
            rcases hxy with rfl | rfl
            · exact hw.2.1.2.1
            · exact hw.2.1.2.2.1
    | var v => rw [triv _ _ (by simp) e]; exact hw
    | const c => rw [triv _ _ (by simp) e]; exact hw
  · intro p as t' hw e
    rcases key p as t' e with rfl | ⟨c, hc, hv⟩
    · exact .inr (.inr ⟨as, rfl, hw⟩)
    · simp only [WtAtom] at hw
      have hs := hr.comp p c hc
      cases hb : givesTruth c with
      | false => rw [hb, hw.1] at hs; simp at hs
      | true =>
        rcases res_truth hb hv with h | h
        · exact .inl h
        · exact .inr (.inl h)
  · intro t t' e v hv
    cases t with
    | app f as =>
      rcases key f as t' e with rfl | ⟨c, hc, hv'⟩
      · exact hv
      · cases hb : givesTruth c with
        | true => rcases res_truth hb hv' with rfl | rfl <;> simp at hv
        | false =>
          rcases res_value hb hv' with ⟨k, hk, rfl⟩ | ⟨x, y, rfl, hxy⟩
          · simp at hv
          · rcases hxy with rfl | rfl <;> simp [hv]
    | var v => rw [triv _ _ (by simp) e] at hv; exact hv
    | const c => rw [triv _ _ (by simp) e] at hv; exact hv

/-- C33 (partial), with the evaluation that the prover has: a reported refutation means that no
interpretation in which the computations of the prover are true and `=` is identity makes the
input clauses true.  By `C31_evaluation_has_model` there are such interpretations.  Missing: as
above. -/
theorem C33_refutation_sound_arith_partial (arith : Bool) (wd : Const → Int) (hh m : Term → Nat) (sg : Const → Role)
    (hr : ArithRoles arith sg) (input : List (List ALit)) (hi : ∀ cl ∈ input, InputOk sg cl) (s : PState)
    (h : Run ⟨Arith.evalRec arith, wd, hh, m⟩ ShortActive input s) (hs : s.refuted = true) (I : Interp)
    (he : EvSound I (Arith.evalRec arith)) (ht : TruthOk I) (hI : EqInterp I) : ∃ cl ∈ input, ¬ ClTrue I (plain cl) := by
  by_cases hx : ∃ cl ∈ input, ¬ ClTrue I (plain cl)
  · exact hx
  · refine absurd ⟨I, ⟨he, ht, hI⟩, fun cl hc => ?_⟩
      (C33_refutation_sound_partial _ sg ⟨evalRec_role hr, hr.num⟩ input hi s h hs)
    by_cases hy : ClTrue I (plain cl)
    · exact hy
    · exact absurd ⟨cl, hc, hy⟩ hx

/-- roles as they are computed from the tables of the prover -/
def stdRole (arith : Bool) (rest : Const → Role) (f : Const) : Role :=
  match Arith.computable arith f with
  | some c => if givesTruth c then .pred else .func
  | none => match f with
    | .int _ => .cnst
    | .dbl _ => .cnst
    | f => rest f

example (arith : Bool) (rest : Const → Role) : ArithRoles arith (stdRole arith rest) := by
  refine ⟨?_, ?_⟩
  · intro k hk
    cases k <;> simp_all [isNumber, stdRole, Arith.computable]
  · intro f c h; exact .inl (by simp [stdRole, h])

/-! ### Examples -/

/-- addresses by position -/
def tagPos (ls : List Lit) : List ALit := ls.mapIdx (fun i l => ⟨i, l.neg, l.atom⟩)

theorem tagPos_new (ls : List Lit) : NewCl ls (tagPos ls) := by
  refine ⟨?_, ?_⟩
  · apply List.ext_getElem
    · simp [tagPos]
    · intro i h1 h2; simp [tagPos, ALit.lit]
  · rw [Sep, List.pairwise_iff_getElem]
    intro i j h1 h2 hij e
    simp [tagPos] at e
    omega

/-- a configuration without evaluation -/
def exCfg : Cfg := ⟨some, wdEx, fun _ => 0, fun _ => 0⟩

/-- `p(a)`, `-p(X) | q(X)`, `-q(a)` -/
def exInput : List (List ALit) :=
  [[⟨0, false, ap "p" [cn "a"]⟩], [⟨0, true, ap "p" [.var 0]⟩, ⟨1, false, ap "q" [.var 0]⟩], [⟨0, true, ap "q" [cn "a"]⟩]]

/-- roles for the example -/
def exRole : Const → Role
  | .sym s => if s = "a" then .cnst else .pred
  | _ => .cnst

example : Roles exCfg exRole ∧ ∀ cl ∈ exInput, InputOk exRole cl := by
  refine ⟨⟨EvRole.some _, ?_⟩, ?_⟩
  · intro k hk; cases k <;> simp_all [isNumber, exRole]
  · intro cl hc
    simp only [exInput, List.mem_cons, List.not_mem_nil, or_false] at hc
    rcases hc with rfl | rfl | rfl <;>
      refine ⟨?_, ?_, ?_⟩ <;> simp [Sep, ap, cn, WtAtom, WtL, WtT, exRole, vars, varsL]

theorem cutsNone (s : PState) : CutsFrom s ⟨fun _ => [], fun _ => []⟩ (fun _ _ => []) (fun _ _ => []) :=
  ⟨by simp, by simp, by simp, by simp⟩

/-- the loop refutes the example -/
theorem exRun : ∃ s, Run exCfg ShortActive exInput s ∧ s.refuted = true := by
  have r0 : Run exCfg ShortActive exInput _ := .start (by simp [ShortActive, PState.init])
  have r1 := Run.step r0 (.pick (cl := [⟨0, false, ap "p" [cn "a"]⟩]) (by simp [PState.init, exInput]) (List.Perm.refl _)) (by simp [ShortActive, PState.init])
  have r2 := Run.step r1 (.activate (g := tagPos _) (a := tagPos _) (n := 9) (n' := 9) rfl rfl rfl (tagPos_new _) rfl (tagPos_new _))
    (by simp [ShortActive, PState.init, tagPos])
  have r3 := Run.step r2 (.pick (cl := [⟨0, true, ap "p" [.var 0]⟩, ⟨1, false, ap "q" [.var 0]⟩]) (by simp [PState.init, exInput]) (List.Perm.refl _))
    (by simp [ShortActive, PState.init, tagPos])
  have r4 := Run.step r3 (.activate (g := tagPos _) (a := tagPos _) (n := 9) (n' := 9) rfl rfl rfl (tagPos_new _) rfl (tagPos_new _))
    (by simp [ShortActive, PState.init, tagPos])
  have r5 := Run.step r4 (.derive (r' := [⟨false, ap "q" [cn "a"]⟩]) (.resolve (y := [⟨0, false, ap "p" [cn "a"]⟩]) (n := 9) (i := 0) (j := 0) rfl (.tail _ (.head _)) rfl)
    (cutsNone _) clean_empty tagPos_new (fwd := true) (strong := false) (sdup := false) (m := fun _ => 0) (n := 9) rfl (by simp)
    (.plain (tagPos_new _))) (by simp [ShortActive, PState.init, tagPos])
  have r6 := Run.step r5 (.pick (cl := [⟨0, false, ap "q" [cn "a"]⟩]) (.head _) (List.Perm.refl _)) (by simp [ShortActive, PState.init, tagPos])
  have r7 := Run.step r6 (.activate (g := tagPos _) (a := tagPos _) (n := 9) (n' := 9) rfl rfl rfl (tagPos_new _) rfl (tagPos_new _))
    (by simp [ShortActive, PState.init, tagPos])
  have r8 := Run.step r7 (.pick (cl := [⟨0, true, ap "q" [cn "a"]⟩]) (by simp [PState.init, exInput]) (List.Perm.refl _))
    (by simp [ShortActive, PState.init, tagPos])
  have r9 := Run.step r8 (.activate (g := tagPos _) (a := tagPos _) (n := 9) (n' := 9) rfl rfl rfl (tagPos_new _) rfl (tagPos_new _))
    (by simp [ShortActive, PState.init, tagPos])
  have r10 := Run.step r9 (.deriveEmpty (.resolve (y := [⟨0, false, ap "q" [cn "a"]⟩]) (n := 9) (i := 0) (j := 0) rfl (.tail _ (.head _)) rfl)
    (cutsNone _) clean_empty tagPos_new (fwd := true) (strong := false) (sdup := false) (m := fun _ => 0) (n := 9) rfl)
    (by simp [ShortActive, PState.init, tagPos])
  exact ⟨_, r10, rfl⟩

/-- `f = g`, `p(f(a))`, `-p(g(a))`: satisfiable, `f` and `g` are used as constants and as functions -/
def sharedInput : List (List ALit) :=
  [[⟨0, false, ap "=" [cn "f", cn "g"]⟩], [⟨0, false, ap "p" [ap "f" [cn "a"]]⟩], [⟨0, true, ap "p" [ap "g" [cn "a"]]⟩]]

/-- a structure for the example: two elements, `=` is identity, `f` is constantly true, other
functions constantly false, all constants are true, `p` is true of true -/
def sharedFO : FO where
  D := Bool
  cst _ := true
  fn f _ := decide (f = sy "f")
  pr q as := (q = sy "=" ∧ ∃ a, as = [a, a]) ∨ (q = sy "p" ∧ as = [true]) ∨ q = aTrue

/-- Finding: when a symbol is used both as a constant and as a function the loop refutes a
satisfiable set of clauses, because a rewrite rule for the constant also rewrites the function
symbol (Reasoner/build.c:390-408).  So the full C33 is false. -/
theorem C33_shared_symbol_refutes_satisfiable : ∃ M : FO, (∀ a b, M.pr (.sym "=") [a, b] ↔ a = b) ∧
    M.pr aTrue [] ∧ ¬ M.pr aFalse [] ∧ (∀ cl ∈ sharedInput, M.holds (plain cl)) ∧
    ∃ s, Run exCfg ShortActive sharedInput s ∧ s.refuted = true := by
  refine ⟨sharedFO, ?_, .inr (.inr rfl), ?_, ?_, ?_⟩
  · intro a b
    constructor
    · rintro (⟨_, c, hc⟩ | ⟨h, _⟩ | h)
      · have h1 : a = c := by injection hc
        have h2 : b = c := by injection hc with _ h; injection h
        rw [h1, h2]
      · simp [sy] at h
      · simp [aTrue] at h
    · rintro rfl; exact Or.inl ⟨rfl, a, rfl⟩
  · rintro (⟨h, _⟩ | ⟨h, _⟩ | h) <;> simp [sy, aTrue, aFalse] at h
  · intro cl hc
    simp only [sharedInput, List.mem_cons, List.not_mem_nil, or_false] at hc
    rcases hc with rfl | rfl | rfl
    · exact fun ρ => ⟨_, .head _, .inl ⟨rfl, true, rfl⟩⟩
    · exact fun ρ => ⟨_, .head _, .inr (.inl ⟨rfl, rfl⟩)⟩
    · refine fun ρ => ⟨_, .head _, ?_⟩
      rintro (⟨h, _⟩ | ⟨_, h⟩ | h)
      · simp [sy] at h
      · have : (false : Bool) = true := by simpa [FO.evalL, FO.eval, sharedFO, ap, sy] using h
        cases this
      · simp [aTrue] at h
  · have r0 : Run exCfg ShortActive sharedInput _ := .start (by simp [ShortActive, PState.init])
    have r1 := Run.step r0 (.pick (cl := [⟨0, false, ap "=" [cn "f", cn "g"]⟩]) (.head _) (List.Perm.refl _)) (by simp [ShortActive, PState.init])
    have r2 := Run.step r1 (.activate (g := tagPos _) (a := tagPos _) (n := 9) (n' := 9) rfl rfl rfl (tagPos_new _) rfl (tagPos_new _))
      (by simp [ShortActive, PState.init, tagPos])
    have r3 := Run.step r2 (.learnEq (x := ⟨0, false, ap "=" [cn "f", cn "g"]⟩) (.head _) rfl rfl) (by simp [ShortActive, PState.init, tagPos])
    have r4 := Run.step r3 (.learnUnit (x := ⟨0, false, ap "p" [ap "f" [cn "a"]]⟩) (.passive (.tail _ (.head _)))) (by simp [ShortActive, PState.init, tagPos])
    have r5 := Run.step r4 (.pick (cl := [⟨0, true, ap "p" [ap "g" [cn "a"]]⟩]) (by simp [PState.init, sharedInput]) (List.Perm.refl _)) (by simp [ShortActive, PState.init, tagPos])
    have r6 := Run.step r5 (.simplifyEmpty (us := ⟨fun b => if b then [] else [ap "p" [ap "f" [cn "a"]]], fun _ => []⟩) (cands := fun _ _ => []) (bucket := fun _ _ => [])
      (m := fun _ => 0) (rw' := fun _ => .ok (⟨1, true, ap "p" [ap "f" [cn "a"]]⟩, true)) rfl
      ⟨by intro b; cases b <;> simp [PState.init], by simp, by simp, by simp⟩ ?_ rfl) (by simp [ShortActive, PState.init, tagPos])
    · exact ⟨_, r6, rfl⟩
    · intro x hx y w e
      simp only [List.mem_singleton] at hx
      subst hx
      simp only [Out.ok.injEq, Prod.mk.injEq] at e
      obtain ⟨rfl, rfl⟩ := e
      refine ⟨⟨10, 1, ?_⟩, .inr (by simp)⟩
      exact C19_shared_symbol_unsound.2.2.1

end Gkc.Props
