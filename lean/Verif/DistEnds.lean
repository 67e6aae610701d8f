import Verif.DistLemmas
/-
Lemmas for C29: distribution ends.  The measure for nested definitions: a definition of a formula
with m clauses of width w goes on to negations with at most w clauses of width less than m.
-/
namespace Gkc.Props
open Gkc.Clausify

theorem nodup_len_le {α : Type} [DecidableEq α] : ∀ (l L : List α), l.Nodup → l ⊆ L → l.length ≤ L.length
  | [], L, _, _ => Nat.zero_le _
  | a :: l, L, hn, hs => by
    have ha : a ∈ L := hs (by simp)
    rw [List.nodup_cons] at hn
    have := nodup_len_le l (L.erase a) hn.2 (fun b hb =>
      (List.mem_erase_of_ne (fun e : b = a => hn.1 (e ▸ hb))).2 (hs (by simp [hb])))
    rw [List.length_erase_of_mem ha] at this
    have : 0 < L.length := List.length_pos_of_mem ha
    simp only [List.length_cons]
    omega

mutual
theorem nodup_collT : ∀ (t : FT) (acc : List Nm), acc.Nodup → (collT acc t).Nodup
  | .nm n, acc, h => by
    simp only [collT]
    split
    · split
      · exact h
      · rename_i hn
        exact List.nodup_cons.2 ⟨hn, h⟩
    · exact h
  | .app f as, acc, h => by
    simp only [collT]
    refine nodup_collTL as _ ?_
    split
    · split
      · exact h
      · rename_i hn
        exact List.nodup_cons.2 ⟨hn, h⟩
    · exact h
theorem nodup_collTL : ∀ (ts : List FT) (acc : List Nm), acc.Nodup → (collTL acc ts).Nodup
  | [], acc, h => h
  | a :: as, acc, h => by
    simp only [collTL]
    exact nodup_collTL as _ (nodup_collT a acc h)
end

theorem nodup_coll {f : Frm} (hf : QFree f) : ∀ acc : List Nm, acc.Nodup → (coll acc f).Nodup := by
  induction hf with
  | «at» t => exact nodup_collT t
  | neg t => exact nodup_collT t
  | and _ _ ha hb => exact fun acc h => hb _ (ha _ h)
  | or _ _ ha hb => exact fun acc h => hb _ (ha _ h)

/-- the variables are in the list -/
def VIn (L : List Nm) (f : Frm) : Prop := ∀ m, freeIn m f → m.ty = 14 → m ∈ L

theorem VIn.and2 {L : List Nm} {a b : Frm} : VIn L (.and [a, b]) ↔ VIn L a ∧ VIn L b := by
  constructor
  · exact fun h => ⟨fun m hm => h m (by simp [freeIn, freeInL, hm]), fun m hm => h m (by simp [freeIn, freeInL, hm])⟩
  · intro h m hm
    simp only [freeIn, freeInL, or_false] at hm
    exact hm.elim (h.1 m) (h.2 m)

theorem VIn.or2 {L : List Nm} {a b : Frm} : VIn L (.or [a, b]) ↔ VIn L a ∧ VIn L b := by
  constructor
  · exact fun h => ⟨fun m hm => h m (by simp [freeIn, freeInL, hm]), fun m hm => h m (by simp [freeIn, freeInL, hm])⟩
  · intro h m hm
    simp only [freeIn, freeInL, or_false] at hm
    exact hm.elim (h.1 m) (h.2 m)

theorem defAtom_some {L : List Nm} {f : Frm} (hf : QFree f) (hv : VIn L f) (hl : L.length ≤ 999) (nr : Nat) :
    ∃ d, defAtom nr f = some d ∧ VIn L (.at d) := by
  have hsub : coll [] f ⊆ L := fun m hm => by
    have := (mem_coll hf []).1 hm
    simp only [List.not_mem_nil, false_or] at this
    exact hv m this.2 this.1
  have := nodup_len_le _ L (nodup_coll hf [] List.nodup_nil) hsub
  have e : defAtom nr f = some (if (coll [] f).isEmpty then .nm (dfName nr)
      else .app (dfName nr) ((coll [] f).map .nm)) := by
    unfold defAtom
    simp only
    rw [if_neg (by omega)]
  refine ⟨_, e, fun m hm ht => ?_⟩
  rcases (defAtom_spec hf e).2 m hm with rfl | h
  · cases ht
  · exact hv m h ht

/-! ### Sizes -/

/-- number of clauses of an and-tree -/
def nCl : Frm → Nat
  | .and [a, b] => nCl a + nCl b
  | _ => 1
/-- number of literals of an or-tree -/
def nLit : Frm → Nat
  | .or [a, b] => nLit a + nLit b
  | _ => 1
/-- width of the widest clause -/
def width : Frm → Nat
  | .and [a, b] => max (width a) (width b)
  | f => nLit f

theorem Cls.nCl {f : Frm} (h : Cls f) : nCl f = 1 := by
  cases h with
  | lit h => cases h <;> rfl
  | or _ _ => rfl
theorem Cls.width {f : Frm} (h : Cls f) : width f = nLit f := by
  cases h with
  | lit h => cases h <;> rfl
  | or _ _ => rfl
theorem nCl_pos {f : Frm} (h : Cnf f) : 1 ≤ nCl f := by
  induction h with
  | cls h => rw [h.nCl]; exact Nat.le_refl _
  | and _ _ ha hb => simp only [nCl]; omega

/-- an and-tree of literals -/
inductive Cj : Frm → Prop
  | lit {f : Frm} : Lit f → Cj f
  | and {a b : Frm} : Cj a → Cj b → Cj (.and [a, b])

theorem Cj.cnf {f : Frm} (h : Cj f) : Cnf f := by
  induction h with
  | lit h => exact .cls (.lit h)
  | and _ _ ha hb => exact .and ha hb

/-- an or-tree of and-trees of literals, with at most `m` and-trees of at most `w` literals -/
inductive Dnf : Frm → Nat → Nat → Prop
  | cj {f : Frm} {m w : Nat} : Cj f → 1 ≤ m → nCl f ≤ w → Dnf f m w
  | or {a b : Frm} {m1 m2 m w : Nat} : Dnf a m1 w → Dnf b m2 w → m1 + m2 ≤ m → Dnf (.or [a, b]) m w

theorem Dnf.pos {f : Frm} {m w : Nat} (h : Dnf f m w) : 1 ≤ m := by
  induction h with
  | cj _ h _ => exact h
  | or _ _ h ha hb => omega

theorem Dnf.qf {f : Frm} {m w : Nat} (h : Dnf f m w) : QFree f := by
  induction h with
  | cj h _ _ => exact h.cnf.qf
  | or _ _ _ ha hb => exact .or ha hb

theorem Dnf.mono {f : Frm} {m w m' w' : Nat} (h : Dnf f m w) (hm : m ≤ m') (hw : w ≤ w') : Dnf f m' w' := by
  induction h generalizing m' w' with
  | cj c h1 h2 => exact .cj c (by omega) (by omega)
  | or _ _ h ha hb => exact .or (ha (Nat.le_refl _) hw) (hb (Nat.le_refl _) hw) (by omega)

theorem neg_cls {f : Frm} (h : Cls f) : ∃ g, negpush false f = some g ∧ Cj g ∧ nCl g = nLit f := by
  induction h with
  | lit h =>
    cases h with
    | «at» t => exact ⟨_, rfl, .lit (.neg t), rfl⟩
    | neg t => exact ⟨.at t, by simp [negpush], .lit (.at t), rfl⟩
  | or _ _ ha hb =>
    obtain ⟨ga, e1, c1, l1⟩ := ha
    obtain ⟨gb, e2, c2, l2⟩ := hb
    refine ⟨.and [gb, ga], by simp [negpush, negpushL, e1, e2, junct], .and c2 c1, ?_⟩
    simp only [nCl, nLit]; omega

theorem neg_cnf {f : Frm} (h : Cnf f) : ∃ g, negpush false f = some g ∧ Dnf g (nCl f) (width f) := by
  induction h with
  | cls h =>
    obtain ⟨g, e, c, l⟩ := neg_cls h
    exact ⟨g, e, .cj c (by rw [h.nCl]; exact Nat.le_refl _) (by rw [l, h.width]; exact Nat.le_refl _)⟩
  | and _ _ ha hb =>
    obtain ⟨ga, e1, d1⟩ := ha
    obtain ⟨gb, e2, d2⟩ := hb
    refine ⟨.or [gb, ga], by simp [negpush, negpushL, e1, e2, junct],
      .or (d2.mono (Nat.le_refl _) ?_) (d1.mono (Nat.le_refl _) ?_) ?_⟩
    · simp only [width]; exact Nat.le_max_right _ _
    · simp only [width]; exact Nat.le_max_left _ _
    · simp only [nCl]; omega

/-! ### Ending runs -/

section
variable (strat : Bool)

/-- with enough depth the result is this -/
def Runs (indef : Bool) (f : Frm) (s : DSt) (g : Frm) (s' : DSt) : Prop :=
  ∃ n0, ∀ n, n0 ≤ n → dist strat n indef f s = some (g, s')

/-- the same for definitions -/
def RunsD (f : Frm) (s : DSt) (g : Frm) (s' : DSt) : Prop :=
  ∃ n0, ∀ n, n0 ≤ n → makedef (dist strat n true) f s = some (g, s')

variable {strat} {indef : Bool} {L : List Nm}

theorem runs_succ {f g : Frm} {s s' : DSt} (n0 : Nat) (h : ∀ n, n0 ≤ n → dist strat (n + 1) indef f s = some (g, s')) :
    Runs strat indef f s g s' :=
  ⟨n0 + 1, fun n hn => by
    obtain ⟨m, rfl⟩ : ∃ m, n = m + 1 := ⟨n - 1, by omega⟩
    exact h m (by omega)⟩

theorem runs_lit {f : Frm} (h : Lit f) (s : DSt) : Runs strat indef f s f s :=
  runs_succ 0 (fun n _ => by cases h <;> rfl)

theorem runs_and {a b r1 r2 : Frm} {s s1 s2 : DSt} (h1 : Runs strat indef a s r1 s1) (h2 : Runs strat indef b s1 r2 s2) :
    Runs strat indef (.and [a, b]) s (.and [r1, r2]) s2 := by
  obtain ⟨n1, h1⟩ := h1
  obtain ⟨n2, h2⟩ := h2
  refine runs_succ (max n1 n2) (fun n hn => ?_)
  simp only [dist, h1 n (by omega), h2 n (by omega), Option.bind_some, Option.map_some]

theorem runs_or_cls {a b r1 r2 : Frm} {s s1 s2 : DSt} (h1 : Runs strat indef a s r1 s1) (h2 : Runs strat indef b s1 r2 s2)
    (e1 : andArgs r1 = none) (e2 : andArgs r2 = none) : Runs strat indef (.or [a, b]) s (.or [r1, r2]) s2 := by
  obtain ⟨n1, h1⟩ := h1
  obtain ⟨n2, h2⟩ := h2
  refine runs_succ (max n1 n2) (fun n hn => ?_)
  simp only [dist, h1 n (by omega), h2 n (by omega), Option.bind_some, e1, e2]

theorem runs_or_left {a b r1 r2 a1 a2 r3 r4 : Frm} {s s1 s2 s3 s4 : DSt} (h1 : Runs strat indef a s r1 s1)
    (h2 : Runs strat indef b s1 r2 s2) (e1 : andArgs r1 = some (a1, a2)) (e2 : andArgs r2 = none)
    (h3 : Runs strat indef (.or [a1, r2]) s2 r3 s3) (h4 : Runs strat indef (.or [a2, r2]) s3 r4 s4) :
    Runs strat indef (.or [a, b]) s (.and [r3, r4]) s4 := by
  obtain ⟨n1, h1⟩ := h1
  obtain ⟨n2, h2⟩ := h2
  obtain ⟨n3, h3⟩ := h3
  obtain ⟨n4, h4⟩ := h4
  refine runs_succ (n1 + n2 + n3 + n4) (fun n hn => ?_)
  simp only [dist, h1 n (by omega), h2 n (by omega), h3 n (by omega), h4 n (by omega), Option.bind_some, Option.map_some, e1, e2]

theorem runs_or_right {a b r1 r2 a1 a2 r3 r4 : Frm} {s s1 s2 s3 s4 : DSt} (h1 : Runs strat indef a s r1 s1)
    (h2 : Runs strat indef b s1 r2 s2) (e1 : andArgs r1 = none) (e2 : andArgs r2 = some (a1, a2))
    (h3 : Runs strat indef (.or [a2, r1]) s2 r3 s3) (h4 : Runs strat indef (.or [a1, r1]) s3 r4 s4) :
    Runs strat indef (.or [a, b]) s (.and [r3, r4]) s4 := by
  obtain ⟨n1, h1⟩ := h1
  obtain ⟨n2, h2⟩ := h2
  obtain ⟨n3, h3⟩ := h3
  obtain ⟨n4, h4⟩ := h4
  refine runs_succ (n1 + n2 + n3 + n4) (fun n hn => ?_)
  simp only [dist, h1 n (by omega), h2 n (by omega), h3 n (by omega), h4 n (by omega), Option.bind_some, Option.map_some, e1, e2]

theorem runs_or_defs {a b r1 r2 a1 a2 a3 a4 d1 d2 : Frm} {s s1 s2 s3 s4 : DSt} (h1 : Runs strat indef a s r1 s1)
    (h2 : Runs strat indef b s1 r2 s2) (e1 : andArgs r1 = some (a1, a2)) (e2 : andArgs r2 = some (a3, a4))
    (hc : (strat && (indef || decide (10 ≤ complexity a1 + complexity a2 + complexity a3 + complexity a4))) = true)
    (h3 : RunsD strat r1 s2 d1 s3) (h4 : RunsD strat r2 s3 d2 s4) : Runs strat indef (.or [a, b]) s (.or [d1, d2]) s4 := by
  obtain ⟨n1, h1⟩ := h1
  obtain ⟨n2, h2⟩ := h2
  obtain ⟨n3, h3⟩ := h3
  obtain ⟨n4, h4⟩ := h4
  refine runs_succ (n1 + n2 + n3 + n4) (fun n hn => ?_)
  simp only [dist, h1 n (by omega), h2 n (by omega), Option.bind_some, e1, e2, hc, if_true, h3 n (by omega),
    h4 n (by omega), Option.map_some]

theorem runs_or_four {a b r1 r2 a1 a2 a3 a4 r3 r4 r5 r6 : Frm} {s s1 s2 s3 s4 s5 s6 : DSt} (h1 : Runs strat indef a s r1 s1)
    (h2 : Runs strat indef b s1 r2 s2) (e1 : andArgs r1 = some (a1, a2)) (e2 : andArgs r2 = some (a3, a4))
    (hc : (strat && (indef || decide (10 ≤ complexity a1 + complexity a2 + complexity a3 + complexity a4))) = false)
    (h3 : Runs strat indef (.or [a1, a3]) s2 r3 s3) (h4 : Runs strat indef (.or [a1, a4]) s3 r4 s4)
    (h5 : Runs strat indef (.or [a2, a3]) s4 r5 s5) (h6 : Runs strat indef (.or [a2, a4]) s5 r6 s6) :
    Runs strat indef (.or [a, b]) s (.and [r3, .and [r4, .and [r5, r6]]]) s6 := by
  obtain ⟨n1, h1⟩ := h1
  obtain ⟨n2, h2⟩ := h2
  obtain ⟨n3, h3⟩ := h3
  obtain ⟨n4, h4⟩ := h4
  obtain ⟨n5, h5⟩ := h5
  obtain ⟨n6, h6⟩ := h6
  refine runs_succ (n1 + n2 + n3 + n4 + n5 + n6) (fun n hn => ?_)
  simp only [dist, h1 n (by omega), h2 n (by omega), Option.bind_some, e1, e2, hc, Bool.false_eq_true, if_false,
    h3 n (by omega), h4 n (by omega), h5 n (by omega), h6 n (by omega), Option.map_some]

/-- clauses stay as they are -/
theorem runs_cls {f : Frm} (h : Cls f) (s : DSt) : Runs strat indef f s f s := by
  induction h with
  | lit h => exact runs_lit h s
  | or ha hb iha ihb => exact runs_or_cls iha ihb ha.noAnd hb.noAnd

theorem runs_cnf {f : Frm} (h : Cnf f) (s : DSt) : Runs strat indef f s f s := by
  induction h with
  | cls h => exact runs_cls h s
  | and _ _ iha ihb => exact runs_and iha ihb

/-- what is known of a result -/
structure Good (L : List Nm) (m w : Nat) (g : Frm) : Prop where
  cnf : Cnf g
  vin : VIn L g
  n : nCl g ≤ m
  wd : width g ≤ w

/-- clauses with one clause added -/
theorem runs_or_one {x y : Frm} (hx : Cnf x) (hy : Cls y) (vx : VIn L x) (vy : VIn L y) (s : DSt) :
    ∃ g, Runs strat indef (.or [x, y]) s g s ∧ Good L (nCl x) (width x + nLit y) g := by
  induction hx with
  | cls h =>
    refine ⟨_, runs_or_cls (runs_cls h s) (runs_cls hy s) h.noAnd hy.noAnd, .cls (.or h hy), VIn.or2.2 ⟨vx, vy⟩, ?_, ?_⟩
    · rw [(Cls.or h hy).nCl, h.nCl]; exact Nat.le_refl _
    · rw [(Cls.or h hy).width, h.width]; exact Nat.le_refl _
  | @and a b ha hb iha ihb =>
    have v := VIn.and2.1 vx
    obtain ⟨g1, r1, o1⟩ := iha v.1
    obtain ⟨g2, r2, o2⟩ := ihb v.2
    refine ⟨_, runs_or_left (runs_cnf (.and ha hb) s) (runs_cls hy s) rfl hy.noAnd r1 r2, .and o1.cnf o2.cnf,
      VIn.and2.2 ⟨o1.vin, o2.vin⟩, ?_, ?_⟩
    · have := o1.n; have := o2.n
      simp only [nCl]; omega
    · have := o1.wd; have := o2.wd
      simp only [width]; omega

/-- the same with the parts computed first -/
theorem runs_or_one' {a b x y : Frm} {s s1 s2 : DSt} (ra : Runs strat indef a s x s1) (rb : Runs strat indef b s1 y s2)
    (hx : Cnf x) (hy : Cls y) (vx : VIn L x) (vy : VIn L y) :
    ∃ g, Runs strat indef (.or [a, b]) s g s2 ∧ Good L (nCl x) (width x + nLit y) g := by
  cases hx with
  | cls h =>
    refine ⟨_, runs_or_cls ra rb h.noAnd hy.noAnd, .cls (.or h hy), VIn.or2.2 ⟨vx, vy⟩, ?_, ?_⟩
    · rw [(Cls.or h hy).nCl, h.nCl]; exact Nat.le_refl _
    · rw [(Cls.or h hy).width, h.width]; exact Nat.le_refl _
  | and h1 h2 =>
    have v := VIn.and2.1 vx
    obtain ⟨g1, r1, o1⟩ := runs_or_one h1 hy v.1 vy s2
    obtain ⟨g2, r2, o2⟩ := runs_or_one h2 hy v.2 vy s2
    refine ⟨_, runs_or_left ra rb rfl hy.noAnd r1 r2, .and o1.cnf o2.cnf, VIn.and2.2 ⟨o1.vin, o2.vin⟩, ?_, ?_⟩
    · have := o1.n; have := o2.n
      simp only [nCl]; omega
    · have := o1.wd; have := o2.wd
      simp only [width]; omega

/-- the clause first -/
theorem runs_one_or' {a b x y : Frm} {s s1 s2 : DSt} (ra : Runs strat indef a s y s1) (rb : Runs strat indef b s1 x s2)
    (hx : Cnf x) (hy : Cls y) (vx : VIn L x) (vy : VIn L y) :
    ∃ g, Runs strat indef (.or [a, b]) s g s2 ∧ Good L (nCl x) (width x + nLit y) g := by
  cases hx with
  | cls h =>
    refine ⟨_, runs_or_cls ra rb hy.noAnd h.noAnd, .cls (.or hy h), VIn.or2.2 ⟨vy, vx⟩, ?_, ?_⟩
    · rw [(Cls.or hy h).nCl, h.nCl]; exact Nat.le_refl _
    · rw [(Cls.or hy h).width, h.width]; simp only [nLit]; omega
  | and h1 h2 =>
    have v := VIn.and2.1 vx
    obtain ⟨g1, r1, o1⟩ := runs_or_one h2 hy v.2 vy s2
    obtain ⟨g2, r2, o2⟩ := runs_or_one h1 hy v.1 vy s2
    refine ⟨_, runs_or_right ra rb hy.noAnd rfl r1 r2, .and o1.cnf o2.cnf, VIn.and2.2 ⟨o1.vin, o2.vin⟩, ?_, ?_⟩
    · have := o1.n; have := o2.n
      simp only [nCl]; omega
    · have := o1.wd; have := o2.wd
      simp only [width]; omega

/-- a definition is made if the negation can be treated -/
theorem runs_makedef {x : Frm} (hx : Cnf x) (vx : VIn L x) (hl : L.length ≤ 999)
    (ih : ∀ f s, Dnf f (nCl x) (width x) → VIn L f → ∃ g s', Runs strat true f s g s' ∧ Cnf g ∧ VIn L g) (s : DSt) :
    ∃ d s', RunsD strat x s (.at d) s' ∧ VIn L (.at d) := by
  obtain ⟨d, ed, vd⟩ := defAtom_some hx.qf vx hl (s.nr + 1)
  have vnd : VIn L (.neg (.at d)) := vd
  obtain ⟨g1, r1, _⟩ := runs_one_or' (strat := strat) (indef := true) (runs_lit (.neg d) ⟨s.defs, s.nr + 1⟩)
    (runs_cnf hx _) hx (.lit (.neg d)) vx vnd
  obtain ⟨nf, en, dn⟩ := neg_cnf hx
  have vn : VIn L nf := by
    obtain ⟨nf', en', _, nn, _⟩ := negpush_qf hx.qf
    rw [en] at en'
    obtain rfl := Option.some.inj en'
    exact fun m hm => vx m ((nn m).1 hm)
  obtain ⟨g2, s2, r2, c2, v2⟩ := ih nf ⟨s.defs, s.nr + 1⟩ dn vn
  obtain ⟨g3, r3, _⟩ := runs_one_or' (strat := strat) (indef := true) (runs_lit (.at d) ⟨s.defs, s.nr + 1⟩) r2 c2
    (.lit (.at d)) v2 vd
  obtain ⟨n1, r1⟩ := r1
  obtain ⟨n3, r3⟩ := r3
  refine ⟨d, ⟨some (addDef s2.defs (.and [g1, g3])), s2.nr⟩, ⟨n1 + n3, fun n hn => ?_⟩, vd⟩
  simp only [makedef, ed, en, Option.bind_some, r1 n (by omega), r3 n (by omega), Option.map_some]

theorem Good.mono {m w m' w' : Nat} {g : Frm} (h : Good L m w g) (hm : m ≤ m') (hw : w ≤ w') : Good L m' w' g :=
  ⟨h.cnf, h.vin, Nat.le_trans h.n hm, Nat.le_trans h.wd hw⟩

theorem cj_width {f : Frm} (h : Cj f) : width f = 1 := by
  induction h with
  | lit h => cases h <;> rfl
  | and _ _ ha hb => simp only [width, ha, hb]; rfl

/-- inside a definition -/
theorem runs_dnf (hl : L.length ≤ 999) : ∀ (k : Nat) (f : Frm) (m w : Nat) (s : DSt), m + w ≤ k → Dnf f m w → VIn L f →
    ∃ g s', Runs true true f s g s' ∧ Good L w m g := by
  intro k
  induction k with
  | zero => intro f m w s hk hf _; have := hf.pos; omega
  | succ k ih =>
    intro f m w s hk hf vf
    cases hf with
    | cj c h1 h2 => exact ⟨f, s, runs_cnf c.cnf s, c.cnf, vf, h2, by rw [cj_width c]; exact h1⟩
    | @or a b m1 m2 _ _ ha hb h =>
      have v := VIn.or2.1 vf
      have p1 := ha.pos
      have p2 := hb.pos
      obtain ⟨r1, s1, ra, o1⟩ := ih a m1 w s (by omega) ha v.1
      obtain ⟨r2, s2, rb, o2⟩ := ih b m2 w s1 (by omega) hb v.2
      have n1 := o1.n
      have n2 := o2.n
      have w1 := o1.wd
      have w2 := o2.wd
      cases e2 : andArgs r2 with
      | none =>
        have c2 := o2.cnf.cls_of e2
        obtain ⟨g, r, o⟩ := runs_or_one' ra rb o1.cnf c2 o1.vin o2.vin
        exact ⟨g, s2, r, o.mono n1 (by rw [c2.width] at w2; omega)⟩
      | some p2 =>
        cases e1 : andArgs r1 with
        | none =>
          have c1 := o1.cnf.cls_of e1
          obtain ⟨g, r, o⟩ := runs_one_or' ra rb o2.cnf c1 o2.vin o1.vin
          exact ⟨g, s2, r, o.mono n2 (by rw [c1.width] at w1; omega)⟩
        | some p1 =>
          obtain ⟨d1, s3, r3, v3⟩ := runs_makedef o1.cnf o1.vin hl (fun f s hf vf => by
            obtain ⟨g, s', r, o⟩ := ih f _ _ s (by omega) hf vf
            exact ⟨g, s', r, o.cnf, o.vin⟩) s2
          obtain ⟨d2, s4, r4, v4⟩ := runs_makedef o2.cnf o2.vin hl (fun f s hf vf => by
            obtain ⟨g, s', r, o⟩ := ih f _ _ s (by omega) hf vf
            exact ⟨g, s', r, o.cnf, o.vin⟩) s3
          have c : Cls (.or [.at d1, .at d2]) := .or (.lit (.at _)) (.lit (.at _))
          refine ⟨_, s4, runs_or_defs ra rb (a1 := p1.1) (a2 := p1.2) e1 (a3 := p2.1) (a4 := p2.2) e2 rfl r3 r4,
            .cls c, VIn.or2.2 ⟨v3, v4⟩, ?_, ?_⟩
          · rw [c.nCl]
            have := nCl_pos o1.cnf
            omega
          · rw [c.width]
            simp only [nLit]
            omega

/-- any two and-trees of clauses -/
theorem runs_or_cnf (hl : L.length ≤ 999) : ∀ (k : Nat) (x y : Frm) (a b : Frm) (s s1 s2 : DSt),
    nCl x + nCl y ≤ k → Cnf x → Cnf y → VIn L x → VIn L y → Runs strat indef a s x s1 → Runs strat indef b s1 y s2 →
    ∃ g s', Runs strat indef (.or [a, b]) s g s' ∧ Cnf g ∧ VIn L g := by
  intro k
  induction k with
  | zero => intro x y a b s s1 s2 hk hx hy; have := nCl_pos hx; omega
  | succ k ih =>
    intro x y a b s s1 s2 hk hx hy vx vy ra rb
    cases e2 : andArgs y with
    | none =>
      obtain ⟨g, r, o⟩ := runs_or_one' ra rb hx (hy.cls_of e2) vx vy
      exact ⟨g, s2, r, o.cnf, o.vin⟩
    | some p2 =>
      cases e1 : andArgs x with
      | none =>
        obtain ⟨g, r, o⟩ := runs_one_or' ra rb hy (hx.cls_of e1) vy vx
        exact ⟨g, s2, r, o.cnf, o.vin⟩
      | some p1 =>
        obtain ⟨a1, a2⟩ := p1
        obtain ⟨a3, a4⟩ := p2
        cases hc : (strat && (indef || decide (10 ≤ complexity a1 + complexity a2 + complexity a3 + complexity a4))) with
        | true =>
          have hs : strat = true := by
            rw [Bool.and_eq_true] at hc; exact hc.1
          subst hs
          obtain ⟨d1, s3, r3, v3⟩ := runs_makedef (strat := true) hx vx hl (fun f s hf vf => by
            obtain ⟨g, s', r, o⟩ := runs_dnf hl _ f _ _ s (Nat.le_refl _) hf vf
            exact ⟨g, s', r, o.cnf, o.vin⟩) s2
          obtain ⟨d2, s4, r4, v4⟩ := runs_makedef (strat := true) hy vy hl (fun f s hf vf => by
            obtain ⟨g, s', r, o⟩ := runs_dnf hl _ f _ _ s (Nat.le_refl _) hf vf
            exact ⟨g, s', r, o.cnf, o.vin⟩) s3
          exact ⟨_, s4, runs_or_defs ra rb e1 e2 hc r3 r4, .cls (.or (.lit (.at _)) (.lit (.at _))), VIn.or2.2 ⟨v3, v4⟩⟩
        | false =>
          obtain ⟨ex, c1, c2⟩ := hx.args e1
          obtain ⟨ey, c3, c4⟩ := hy.args e2
          subst ex ey
          have v1 := VIn.and2.1 vx
          have v2 := VIn.and2.1 vy
          have q1 := nCl_pos c1
          have q2 := nCl_pos c2
          have q3 := nCl_pos c3
          have q4 := nCl_pos c4
          simp only [nCl] at hk
          obtain ⟨g3, s3, r3, k3, u3⟩ := ih a1 a3 _ _ s2 _ _ (by omega) c1 c3 v1.1 v2.1 (runs_cnf c1 _) (runs_cnf c3 _)
          obtain ⟨g4, s4, r4, k4, u4⟩ := ih a1 a4 _ _ s3 _ _ (by omega) c1 c4 v1.1 v2.2 (runs_cnf c1 _) (runs_cnf c4 _)
          obtain ⟨g5, s5, r5, k5, u5⟩ := ih a2 a3 _ _ s4 _ _ (by omega) c2 c3 v1.2 v2.1 (runs_cnf c2 _) (runs_cnf c3 _)
          obtain ⟨g6, s6, r6, k6, u6⟩ := ih a2 a4 _ _ s5 _ _ (by omega) c2 c4 v1.2 v2.2 (runs_cnf c2 _) (runs_cnf c4 _)
          exact ⟨_, s6, runs_or_four ra rb e1 e2 hc r3 r4 r5 r6, .and k3 (.and k4 (.and k5 k6)),
            VIn.and2.2 ⟨u3, VIn.and2.2 ⟨u4, VIn.and2.2 ⟨u5, u6⟩⟩⟩⟩

/-- every quantifier-free formula -/
theorem runs_qf (hl : L.length ≤ 999) {f : Frm} (hf : QFree f) : ∀ s : DSt, VIn L f →
    ∃ g s', Runs strat indef f s g s' ∧ Cnf g ∧ VIn L g := by
  induction hf with
  | «at» t => exact fun s vf => ⟨_, s, runs_lit (.at t) s, .cls (.lit (.at t)), vf⟩
  | neg t => exact fun s vf => ⟨_, s, runs_lit (.neg t) s, .cls (.lit (.neg t)), vf⟩
  | and _ _ iha ihb =>
    intro s vf
    have v := VIn.and2.1 vf
    obtain ⟨r1, s1, h1, c1, v1⟩ := iha s v.1
    obtain ⟨r2, s2, h2, c2, v2⟩ := ihb s1 v.2
    exact ⟨_, s2, runs_and h1 h2, .and c1 c2, VIn.and2.2 ⟨v1, v2⟩⟩
  | or _ _ iha ihb =>
    intro s vf
    have v := VIn.or2.1 vf
    obtain ⟨r1, s1, h1, c1, v1⟩ := iha s v.1
    obtain ⟨r2, s2, h2, c2, v2⟩ := ihb s1 v.2
    exact runs_or_cnf hl _ r1 r2 _ _ s s1 s2 (Nat.le_refl _) c1 c2 v1 v2 h1 h2

end

end Gkc.Props
