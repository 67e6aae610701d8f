import Verif.SubsumeLemmas
import Verif.Sem
import Verif.Props.Unify
/-
C10 (literal quick check), C11 (subsumption), C12 (clause quick check), C34 (literal sort).
-/
namespace Gkc.Props
open Gkc Term

/-! ## C10 -/

/-- C10 (partial): if the literal `l'` is an instance of the literal `l` (of the same sign),
the quick check lets the pair through, and the early exit of the search does not fire, whatever
the sizes and depths.  Missing: atoms that begin with more than 2147 constants, see
`C10_prefix_hash_overflow`. -/
theorem C10_quick_check_admissible_partial (h : Const → Int)
    (hh : ∀ c, 1 ≤ h c ∧ h c ≤ 999997) (l l' : Lit) (θ : Nat → Term)
    (hs : (pre l.atom).length ≤ 2147) (hs' : (pre l'.atom).length ≤ 2147)
    (e : l.subst θ = l') :
    negPol (l.word h) (l'.word h) = false ∧ matchable (l.word h) (l'.word h) = true ∧
      sortBigger (l.word h) (l'.word h) = false := by
  subst e
  refine ⟨?_, ?_, ?_⟩
  · rw [negPol_iff hh hs hs']; simp [Lit.subst]
  · exact matchable_subst hh hs hs' rfl
  · exact not_sortBigger_subst hh hs hs' rfl rfl

/-- C10: the sign and ground flags in the summary are those of the literal. -/
theorem C10_flags (h : Const → Int) (hh : ∀ c, 1 ≤ h c ∧ h c ≤ 999997) (l : Lit)
    (hs : (pre l.atom).length ≤ 2147) :
    isNegW (l.word h) = l.neg ∧ (isGroundW (l.word h) = true ↔ vars l.atom = []) := by
  refine ⟨isNegW_iff hh hs, ?_⟩
  rw [isGroundW_iff hh hs, allc_iff_vars]

/-- the atom `p(c,...,c,x)` with `n` constants `c` -/
def bigAtom (n : Nat) (x : Term) : Term :=
  .app (.sym "p") (List.replicate n (.const (.sym "c")) ++ [x])

/-- a hash function within the range of wr_term_basehash -/
def hbig : Const → Int := fun _ => 999997

theorem symsL_append (as bs : List Term) : symsL (as ++ bs) = symsL as ++ symsL bs := by
  induction as with
  | nil => simp [symsL]
  | cons a as ih => simp [symsL, ih]

theorem bigAtom_syms (n : Nat) (x : Term) :
    syms (bigAtom n x) = some (.sym "p") :: (List.replicate n (some (.sym "c")) ++ syms x) := by
  have : symsL (List.replicate n (.const (.sym "c"))) = List.replicate n (some (.sym "c")) := by
    induction n with
    | zero => rfl
    | succ n ih => rw [List.replicate_succ, List.replicate_succ, symsL, ih]; simp [syms]
  rw [bigAtom, syms, symsL_append, this]
  simp [symsL]

theorem hbig_consts : ∀ (cs : List Const) (m : TMeta), m.hasvars = false → 0 ≤ m.prefhash →
    m.prefhash + 999997 * cs.length < 2 ^ 31 →
    (consts hbig m cs).prefhash = m.prefhash + 999997 * cs.length ∧
      (consts hbig m cs).hasvars = false
  | [], m, hv, _, _ => by simp [consts]; exact hv
  | c :: cs, m, hv, h0, h1 => by
    simp only [List.length_cons] at h1
    have e : (m.leaf hbig (some c)).prefhash = m.prefhash + 999997 := by
      rw [leaf_prefhash hv, if_neg (by unfold hbig; omega),
        toI32_small (by unfold hbig; omega) (by unfold hbig; omega)]
      rfl
    have := hbig_consts cs (m.leaf hbig (some c)) (by rw [leaf_hasvars_some]; exact hv)
      (by omega) (by omega)
    rw [consts_cons]
    refine ⟨?_, this.2⟩
    rw [this.1, e, List.length_cons]; omega

/-- one more constant after the prefix hash reached `k` -/
theorem hbig_snoc {cs : List Const} {m : TMeta} {k r : Int} (c : Const)
    (hv : (consts hbig m cs).hasvars = false) (hk : (consts hbig m cs).prefhash = k)
    (hr : toI32 (if k + 999997 < 0 then 0 - (k + 999997) else k + 999997) = r) :
    (consts hbig m (cs ++ [c])).prefhash = r ∧ (consts hbig m (cs ++ [c])).hasvars = false := by
  rw [consts_append, consts_cons]
  refine ⟨?_, ?_⟩
  · have : consts hbig ((consts hbig m cs).leaf hbig (some c)) [] = (consts hbig m cs).leaf hbig (some c) := rfl
    rw [this, leaf_prefhash hv, hk]; exact hr
  · have : consts hbig ((consts hbig m cs).leaf hbig (some c)) [] = (consts hbig m cs).leaf hbig (some c) := rfl
    rw [this, leaf_hasvars_some]; exact hv

theorem tw_replicate (n : Nat) (c : Const) (l : List (Option Const)) :
    tw (List.replicate n (some c) ++ l) = List.replicate n c ++ tw l := by
  induction n with
  | zero => rfl
  | succ n ih => rw [List.replicate_succ, List.replicate_succ, List.cons_append, tw, ih]; rfl

/-- summary word of a positive literal in closed form -/
theorem word_pos {h : Const → Int} {t : Term} :
    Lit.word h ⟨false, t⟩ = litWord
      { hasvars := !allc (syms t), depth := dep t, size := size t, preflen := (pre t).length,
        prefhash := (consts h {} (pre t)).prefhash } := by
  have e : ∀ m m' : TMeta, m.hasvars = m'.hasvars → m.depth = m'.depth → m.size = m'.size →
      m.preflen = m'.preflen → m.prefhash = m'.prefhash → litWord m = litWord m' := by
    intro m m' a b c d f; unfold litWord; rw [a, b, c, d, f]
  unfold Lit.word
  simp only [Bool.false_eq_true, if_false]
  apply e
  · exact calc_hasvars h t {} rfl
  · exact calc_depth0 h t {} rfl
  · rw [calc_size h t {} rfl]; simp
  · rw [calc_preflen h t {} rfl]; simp [pre]
  · exact calc_prefhash h t {} rfl

/-- C10 fails without the bound: the general literal `p(c,...,c,X)` and its instance
`p(c,...,c,c)` (2147 constants before the last argument, all hash values 999997): the prefix
hash of the general one leaves the range of `int`, its bits overwrite the depth field, and the
quick check rejects the pair. -/
theorem C10_prefix_hash_overflow :
    (∀ c, 1 ≤ hbig c ∧ hbig c ≤ 999997) ∧
    Lit.subst (fun _ => .const (.sym "c")) ⟨false, bigAtom 2147 (.var 0)⟩
      = ⟨false, bigAtom 2147 (.const (.sym "c"))⟩ ∧
    matchable (Lit.word hbig ⟨false, bigAtom 2147 (.var 0)⟩)
      (Lit.word hbig ⟨false, bigAtom 2147 (.const (.sym "c"))⟩) = false := by
  refine ⟨?_, ?_, ?_⟩
  · intro c; exact ⟨by unfold hbig; omega, by unfold hbig; omega⟩
  · unfold Lit.subst bigAtom
    generalize 2147 = n
    simp
  · have p1 : pre (bigAtom 2147 (.var 0)) =
        (.sym "p" :: List.replicate 2146 (.sym "c")) ++ [.sym "c"] := by
      rw [pre, bigAtom_syms, tw, tw_replicate]
      simp only [syms, tw, List.append_nil]
      rw [List.cons_append, ← List.replicate_succ']
    have p2 : pre (bigAtom 2147 (.const (.sym "c"))) =
        ((.sym "p" :: List.replicate 2146 (.sym "c")) ++ [.sym "c"]) ++ [.sym "c"] := by
      rw [pre, bigAtom_syms, tw, tw_replicate]
      simp only [syms, tw]
      have e : ∀ n, List.replicate (n + 1) (Const.sym "c") ++ [Const.sym "c"] =
          List.replicate n (Const.sym "c") ++ [Const.sym "c"] ++ [Const.sym "c"] := by
        intro n; rw [← List.replicate_succ']
        exact List.replicate_succ'.trans (congrArg (· ++ [Const.sym "c"]) List.replicate_succ')
      rw [e 2146, List.cons_append, List.cons_append]
    obtain ⟨a1, a2⟩ := hbig_consts (.sym "p" :: List.replicate 2146 (.sym "c")) {} rfl (by simp)
      (by simp only [List.length_cons, List.length_replicate]; omega)
    obtain ⟨b1, b2⟩ := hbig_snoc (.sym "c") (r := -2146973740) a2 a1
      (by simp only [List.length_cons, List.length_replicate]; decide)
    obtain ⟨c1, _⟩ := hbig_snoc (.sym "c") (r := 2145973743) b2 b1 (by decide)
    have d : ∀ x, dep x = 0 → dep (bigAtom 2147 x) = 1 := by
      intro x hx
      have : ∀ n, depL (List.replicate n (.const (.sym "c")) ++ [x]) = 0 := by
        intro n
        induction n with
        | zero => simp [depL, hx]
        | succ n ih => rw [List.replicate_succ, List.cons_append, depL, ih]; simp [dep]
      rw [bigAtom, dep, this]
    have sz : ∀ x, size x = 1 → size (bigAtom 2147 x) = 2149 := by
      intro x hx
      rw [← syms_length, bigAtom_syms, List.length_cons, List.length_append,
        List.length_replicate, syms_length, hx]
    have ac : ∀ x, allc (syms (bigAtom 2147 x)) = allc (syms x) := by
      intro x
      have : ∀ n, allc (List.replicate n (some (.sym "c")) ++ syms x) = allc (syms x) := by
        intro n
        induction n with
        | zero => rfl
        | succ n ih => rw [List.replicate_succ, List.cons_append, allc, ih]
      rw [bigAtom_syms, allc, this]
    have l1 : (pre (bigAtom 2147 (.var 0))).length = 2148 := by
      rw [p1, List.length_append, List.length_cons, List.length_replicate]; rfl
    have l2 : (pre (bigAtom 2147 (.const (.sym "c")))).length = 2149 := by
      rw [p2, List.length_append, List.length_append, List.length_cons, List.length_replicate]; rfl
    rw [word_pos, word_pos, l1, l2, p1, p2, b1, c1, d _ rfl, d _ rfl, sz _ rfl, sz _ rfl, ac, ac]
    decide

example : (∀ c, 1 ≤ hbig c ∧ hbig c ≤ 999997) ∧
    (pre (ap "p" [.var 1, .var 2])).length ≤ 2147 ∧
    Lit.subst (fun v => if v = 1 then cn "a" else .var 1) ⟨true, ap "p" [.var 1, .var 2]⟩
      = ⟨true, ap "p" [cn "a", .var 1]⟩ :=
  ⟨C10_prefix_hash_overflow.1, by decide, by decide⟩

/-! ## C34 -/

/-- C34: sorting keeps the literals (each with its own summary) and puts them into descending
order of the summaries: no literal is followed by a bigger one. -/
theorem C34_sort_permutes_descending (lex : Term → Term → Nat) (cl : List SLit) :
    (sortCl lex cl).Perm cl ∧
      ∀ i j (hi : i < (sortCl lex cl).length) (hj : j < (sortCl lex cl).length), i < j →
        sortBigger ((sortCl lex cl)[j]).word ((sortCl lex cl)[i]).word = false := by
  have := sortCl_spec lex cl
  refine ⟨this.2, ?_⟩
  intro i j hi hj hij
  exact List.pairwise_iff_getElem.1 this.1 i j hi hj hij

/-- C34: "bigger" is a strict order in which any two literals that are not ordered are
interchangeable, whatever the summary words. -/
theorem C34_bigger_is_weak_order :
    (∀ a, sortBigger a a = false) ∧
    (∀ a b, sortBigger a b = true → sortBigger b a = false) ∧
    (∀ a b c, sortBigger a b = true → sortBigger b c = true → sortBigger a c = true) ∧
    (∀ a b c, sortBigger a b = true → sortBigger a c = true ∨ sortBigger c b = true) := by
  refine ⟨sortBigger_irrefl, fun a b => sortBigger_asymm, ?_, ?_⟩
  · intro a b c h1 h2
    exact bigger_of (sortBigger_asymm h2) h1
  · intro a b c h1
    cases h : sortBigger c b with
    | true => exact Or.inr rfl
    | false => exact Or.inl (bigger_of h h1)

example : ((sortCl (lexAtoms (fun _ _ => true))
      ([⟨false, ap "p" [.var 1]⟩, ⟨true, ap "q" [cn "a"]⟩, ⟨false, ap "r" [.var 1, .var 2]⟩].map
        (Lit.stored hbig))).map SLit.atom)
    = [ap "q" [cn "a"], ap "r" [.var 1, .var 2], ap "p" [.var 1]] := by decide

/-! ## C11 -/

/-- a clause: a fact is one positive ground atom, a rule any literals -/
inductive Cl
  | fact (a : Term)
  | rule (ls : List Lit)

/-- the literals of a clause -/
def Cl.lits : Cl → List Lit
  | .fact a => [⟨false, a⟩]
  | .rule ls => ls

/-- as stored: literals of a rule carry their summaries -/
def Cl.stored (h : Const → Int) : Cl → SClause
  | .fact a => .fact a
  | .rule ls => .rule (ls.map (Lit.stored h))

/-- the answer predicate -/
def IsAnsAtom (t : Term) : Prop := ∃ as, t = .app (.sym "$ans") as

/-- One substitution maps all literals of `gl` to different literals of `sl`.  With
`ignoreAns`, two answer literals of the same sign count as equal. -/
def SubsumesWith (ignoreAns : Bool) (gl sl : List Lit) : Prop :=
  ∃ (θ : Nat → Term) (f : Fin gl.length → Fin sl.length), (∀ i j, f i = f j → i = j) ∧
    ∀ i, gl[i].neg = sl[f i].neg ∧ (subst θ gl[i].atom = sl[f i].atom ∨
      (ignoreAns = true ∧ IsAnsAtom gl[i].atom ∧ IsAnsAtom sl[f i].atom))

theorem isAns_iff (t : Term) : isAns t = true ↔ IsAnsAtom t := by
  unfold IsAnsAtom
  cases t with
  | var v => simp [isAns]
  | const c => simp [isAns]
  | app f as => simp [isAns]

/-- what is assumed about the atoms of a clause: proper atoms beginning with at most 2147
constants -/
def AtomsOk (ls : List Lit) : Prop :=
  ∀ l ∈ ls, (∃ p as, l.atom = .app p as) ∧ (pre l.atom).length ≤ 2147

/-- the recursive form of the specification is the function form -/
theorem emb_iff {h : Const → Int} (hh : HashOk h) {ans : Bool} {θ : Nat → Term}
    {sl : List Lit} (hsl : AtomsOk sl) : ∀ (gl : List Lit), AtomsOk gl → ∀ (U : Nat → Bool),
    Emb ans θ (sl.map (Lit.stored h)) (gl.map (Lit.stored h)) U ↔
    ∃ f : Fin gl.length → Fin sl.length, (∀ i j, f i = f j → i = j) ∧
      (∀ i, U (f i) = false) ∧
      ∀ i, gl[i].neg = sl[f i].neg ∧ (subst θ gl[i].atom = sl[f i].atom ∨
        (ans = true ∧ IsAnsAtom gl[i].atom ∧ IsAnsAtom sl[f i].atom))
  | [], _, U => by
    simp only [List.map_nil, Emb, true_iff]
    exact ⟨fun i => absurd i.2 (by simp), fun i => absurd i.2 (by simp),
      fun i => absurd i.2 (by simp), fun i => absurd i.2 (by simp)⟩
  | a :: gl, hgl, U => by
    have ih := emb_iff hh hsl gl (fun l hl => hgl l (List.mem_cons_of_mem _ hl)) (ans := ans)
      (θ := θ)
    have srel : ∀ b ∈ sl, SRel ans θ (a.stored h) (b.stored h) ↔
        (a.neg = b.neg ∧ (subst θ a.atom = b.atom ∨
          (ans = true ∧ IsAnsAtom a.atom ∧ IsAnsAtom b.atom))) := by
      intro b hb
      unfold SRel
      rw [show (a.stored h).word = a.word h from rfl, show (b.stored h).word = b.word h from rfl,
        negPol_iff hh (hgl a List.mem_cons_self).2 (hsl b hb).2,
        show (a.stored h).atom = a.atom from rfl, show (b.stored h).atom = b.atom from rfl,
        ← isAns_iff, ← isAns_iff]
      cases a.neg <;> cases b.neg <;> cases ans <;> cases isAns a.atom <;> cases isAns b.atom <;>
        simp
    constructor
    · rintro ⟨i, b, hb, hu, hr, he⟩
      obtain ⟨f, f1, f2, f3⟩ := (ih _).1 he
      rw [List.getElem?_map] at hb
      have hil : i < sl.length := by
        by_cases hi : i < sl.length
        · exact hi
        · rw [List.getElem?_eq_none (by omega)] at hb; simp at hb
      rw [List.getElem?_eq_getElem hil] at hb
      have hb : (sl[i]).stored h = b := by simpa using hb
      subst hb
      have hr := (srel _ (List.getElem_mem hil)).1 hr
      have hne : ∀ j : Fin gl.length, (f j).1 ≠ i := by
        intro j e
        have := f2 j
        simp [mark, e] at this
      refine ⟨fun j => match j with
        | ⟨0, _⟩ => ⟨i, hil⟩
        | ⟨j + 1, hj⟩ => f ⟨j, by simpa using hj⟩, ?_, ?_, ?_⟩
      · rintro ⟨j, hj⟩ ⟨k, hk⟩ e
        cases j with
        | zero => cases k with
          | zero => rfl
          | succ k => exact absurd (congrArg Fin.val e).symm (hne _)
        | succ j => cases k with
          | zero => exact absurd (congrArg Fin.val e) (hne _)
          | succ k =>
            have := f1 _ _ e
            simp only [Fin.mk.injEq] at this ⊢
            omega
      · rintro ⟨j, hj⟩
        cases j with
        | zero => exact hu
        | succ j =>
          have := f2 ⟨j, by simpa using hj⟩
          simp [mark] at this
          exact this.2
      · rintro ⟨j, hj⟩
        cases j with
        | zero => exact hr
        | succ j => exact f3 ⟨j, by simpa using hj⟩
    · rintro ⟨f, f1, f2, f3⟩
      have h0 := f3 ⟨0, by simp⟩
      refine ⟨(f ⟨0, by simp⟩).1, (sl[f ⟨0, by simp⟩]).stored h, ?_, f2 _, ?_, ?_⟩
      · rw [List.getElem?_map, List.getElem?_eq_getElem (f ⟨0, by simp⟩).2]; rfl
      · exact (srel _ (List.getElem_mem _)).2 h0
      · refine (ih _).2 ⟨fun j => f ⟨j.1 + 1, by simp⟩, ?_, ?_, ?_⟩
        · intro i j e
          have := f1 _ _ e
          simp only [Fin.mk.injEq] at this
          exact Fin.ext (by omega)
        · intro i
          have h1 := f2 ⟨i.1 + 1, by simp⟩
          refine mark_ne h1 ?_
          intro e
          have := f1 _ _ (Fin.ext e)
          simp at this
        · intro i
          exact f3 ⟨i.1 + 1, by simp⟩

theorem isAns_subst {l : Lit} (ha : ∃ p as, l.atom = .app p as) (θ : Nat → Term) :
    isAns (subst θ l.atom) = isAns l.atom := by
  obtain ⟨p, as, e⟩ := ha
  rw [e]; simp [isAns]

theorem good_stored {h : Const → Int} (hh : HashOk h) {gl sl : List Lit} (hg : AtomsOk gl)
    (hs : AtomsOk sl) (hd : Desc (sl.map (Lit.stored h))) :
    Good (sl.map (Lit.stored h)) (gl.map (Lit.stored h)) := by
  refine ⟨hd, ?_, ?_, ?_⟩
  · intro a ha b hb θ hn e
    obtain ⟨a, ka, rfl⟩ := List.mem_map.1 ha
    obtain ⟨b, kb, rfl⟩ := List.mem_map.1 hb
    have hn' : a.neg = b.neg := by
      have := negPol_iff hh (hg a ka).2 (hs b kb).2
      rw [show negPol (a.word h) (b.word h) = false from hn] at this
      simpa using this.symm
    exact ⟨not_sortBigger_subst hh (hg a ka).2 (hs b kb).2 hn' e,
      matchable_subst hh (hg a ka).2 (hs b kb).2 e⟩
  · intro a ha θ
    obtain ⟨a, ka, rfl⟩ := List.mem_map.1 ha
    exact isAns_subst (hg a ka).1 θ
  · intro a ha c hc b hb d hd h1 h2 h3
    obtain ⟨a, ka, rfl⟩ := List.mem_map.1 ha
    obtain ⟨b, kb, rfl⟩ := List.mem_map.1 hb
    obtain ⟨c, kc, rfl⟩ := List.mem_map.1 hc
    obtain ⟨d, kd, rfl⟩ := List.mem_map.1 hd
    have e1 := negPol_iff hh (hg a ka).2 (hs b kb).2
    have e2 := negPol_iff hh (hg a ka).2 (hs d kd).2
    have e3 := negPol_iff hh (hg c kc).2 (hs b kb).2
    have e4 := negPol_iff hh (hg c kc).2 (hs d kd).2
    simp only [Lit.stored] at h1 h2 h3 ⊢
    rw [e1] at h1; rw [e2] at h2; rw [e3] at h3; rw [e4]
    simp at h1 h2 h3 ⊢
    rw [h3, ← h1, h2]

theorem subsAux_no_ub {ans : Bool} {sl : List SLit} : ∀ (gl : List SLit),
    (∀ l ∈ gl, hasNum l.atom = false) → ∀ U st, subsAux ans sl gl U st ≠ none
  | [], _, U, st => by simp [subsAux]
  | l1 :: gl, hn, U, st => by
    have ih := subsAux_no_ub (ans := ans) (sl := sl) gl (fun l hl => hn l (List.mem_cons_of_mem _ hl))
    unfold subsAux
    suffices ∀ rest i st, tryLits ans l1 gl.isEmpty (subsAux ans sl gl) rest i U st ≠ none from
      this _ _ _
    intro rest
    induction rest with
    | nil => intro i st; simp [tryLits]
    | cons l2 rest ihr =>
      intro i st
      unfold tryLits
      split
      · exact ihr _ _
      · dsimp only
        split
        · simp
        · split
          · generalize hr : (if (ans && isAns l1.atom && (ans && isAns l2.atom)) = true
              then MRes.ok st else matchT st l1.atom l2.atom) = r
            cases r with
            | ub =>
              split at hr
              · cases hr
              · exact absurd hr (matchT_no_ub _ _ _ (hn l1 List.mem_cons_self))
            | fail s => exact ihr _ _
            | ok s =>
              dsimp only
              split
              · simp
              · generalize hk : subsAux ans sl gl (fun j => j == i || U j) s = k
                cases k with
                | none => exact absurd hk (ih _ _)
                | some p =>
                  obtain ⟨r, s2⟩ := p
                  cases r with
                  | true => simp
                  | false =>
                    dsimp only
                    split
                    · simp
                    · exact ihr _ _
          · exact ihr _ _

theorem val_agrees (st : St) : Agrees st.val st := by
  intro v t h; simp [St.val, h]

theorem agrees_empty (θ : Nat → Term) : Agrees θ St.empty := by
  intro v t h; simp [St.empty] at h

theorem unitLoop_spec {h : Const → Int} (hh : HashOk h) {l1 : Lit}
    (h1 : (∃ p as, l1.atom = .app p as) ∧ (pre l1.atom).length ≤ 2147)
    (hn : hasNum l1.atom = false) : ∀ (sl : List Lit), AtomsOk sl →
    Desc (sl.map (Lit.stored h)) →
    unitLoop (l1.stored h) (sl.map (Lit.stored h)) ≠ none ∧
    (unitLoop (l1.stored h) (sl.map (Lit.stored h)) = some true ↔
      ∃ b ∈ sl, l1.neg = b.neg ∧ ∃ θ, subst θ l1.atom = b.atom)
  | [], _, _ => by simp [unitLoop]
  | b :: sl, hs, hd => by
    have hb := hs b List.mem_cons_self
    have hd' := List.pairwise_cons.1 hd
    have ih := unitLoop_spec hh h1 hn sl (fun l hl => hs l (List.mem_cons_of_mem _ hl)) hd'.2
    rw [List.map_cons]
    unfold unitLoop
    rw [show (l1.stored h).word = l1.word h from rfl, show (b.stored h).word = b.word h from rfl,
      show (l1.stored h).atom = l1.atom from rfl, show (b.stored h).atom = b.atom from rfl]
    split
    · next hx =>
      refine ⟨by simp, ?_⟩
      simp only [Option.some.injEq, Bool.false_eq_true, false_iff]
      rintro ⟨c, hc, hneg, θ, e⟩
      have hnb := not_sortBigger_subst hh h1.2 (hs c hc).2 hneg e
      rcases List.mem_cons.1 hc with rfl | hc'
      · rw [hx] at hnb; cases hnb
      · have hdc := hd'.1 (c.stored h) (List.mem_map_of_mem hc')
        have := bigger_of hdc hx
        rw [show (c.stored h).word = c.word h from rfl, hnb] at this; cases this
    · rw [negPol_iff hh h1.2 hb.2]
      have step : ¬ (l1.neg = b.neg ∧ ∃ θ, subst θ l1.atom = b.atom) →
          ((∃ c ∈ b :: sl, l1.neg = c.neg ∧ ∃ θ, subst θ l1.atom = c.atom) ↔
            ∃ c ∈ sl, l1.neg = c.neg ∧ ∃ θ, subst θ l1.atom = c.atom) := by
        intro hno
        constructor
        · rintro ⟨c, hc, hr⟩
          rcases List.mem_cons.1 hc with rfl | hc'
          · exact absurd hr hno
          · exact ⟨c, hc', hr⟩
        · rintro ⟨c, hc, hr⟩; exact ⟨c, List.mem_cons_of_mem _ hc, hr⟩
      split
      · next hc =>
        have hneg : l1.neg = b.neg := by
          simp at hc; exact hc.1
        cases hm : matchT St.empty l1.atom b.atom with
        | ub => exact absurd hm (matchT_no_ub _ _ _ hn)
        | ok s =>
          refine ⟨by simp, ?_⟩
          simp only [true_iff]
          exact ⟨b, List.mem_cons_self, hneg, s.val, (matchT_sound _ _ _ _ hm).2.1⟩
        | fail s =>
          dsimp only
          rw [step]
          · exact ih
          · rintro ⟨_, θ, e⟩
            obtain ⟨s', hs', _⟩ := matchT_complete l1.atom St.empty θ (agrees_empty θ)
            rw [e, hm] at hs'; cases hs'
      · next hc =>
        rw [step]
        · exact ih
        · rintro ⟨hneg, θ, e⟩
          apply hc
          rw [matchable_subst hh h1.2 hb.2 e]
          simp [hneg]

theorem factLoop_spec {h : Const → Int} (hh : HashOk h) {a : Term} (ha : vars a = []) :
    ∀ (sl : List Lit), AtomsOk sl → Desc (sl.map (Lit.stored h)) →
    (factLoop a (sl.map (Lit.stored h)) = true ↔ ∃ b ∈ sl, b.neg = false ∧ b.atom = a)
  | [], _, _ => by simp [factLoop]
  | b :: sl, hs, hd => by
    have hb := hs b List.mem_cons_self
    have hd' := List.pairwise_cons.1 hd
    have ih := factLoop_spec hh ha sl (fun l hl => hs l (List.mem_cons_of_mem _ hl)) hd'.2
    rw [List.map_cons]
    unfold factLoop
    rw [show (b.stored h).word = b.word h from rfl, show (b.stored h).atom = b.atom from rfl,
      isNegW_iff hh hb.2]
    split
    · next hg =>
      have hg : isGroundW (b.word h) = false := by simpa using hg
      simp only [Bool.false_eq_true, false_iff]
      rintro ⟨c, hc, _, e⟩
      have hgc : isGroundW (c.word h) = true := by
        rw [isGroundW_iff hh (hs c hc).2, allc_iff_vars, e]; exact ha
      rcases List.mem_cons.1 hc with rfl | hc'
      · rw [hg] at hgc; cases hgc
      · have := hd'.1 (c.stored h) (List.mem_map_of_mem hc')
        simp [sortBigger, Lit.stored, hgc, hg] at this
    · split
      · next hc =>
        simp only [true_iff]
        simp only [Bool.and_eq_true, Bool.not_eq_true'] at hc
        exact ⟨b, List.mem_cons_self, hc.1, ((eqTerm_iff _ _).1 hc.2).symm⟩
      · next hc =>
        rw [ih]
        constructor
        · rintro ⟨c, hc, hr⟩; exact ⟨c, List.mem_cons_of_mem _ hc, hr⟩
        · rintro ⟨c, hc', hn, e⟩
          rcases List.mem_cons.1 hc' with rfl | hc'
          · exfalso; apply hc; rw [hn, (eqTerm_iff _ _).2 e.symm]; rfl
          · exact ⟨c, hc', hn, e⟩

theorem subsumes_one {l1 : Lit} {sl : List Lit} :
    SubsumesWith false [l1] sl ↔ ∃ b ∈ sl, l1.neg = b.neg ∧ ∃ θ, subst θ l1.atom = b.atom := by
  constructor
  · rintro ⟨θ, f, _, h⟩
    have := h ⟨0, by simp⟩
    refine ⟨sl[f ⟨0, by simp⟩], List.getElem_mem _, this.1, θ, ?_⟩
    rcases this.2 with e | ⟨e, _⟩
    · exact e
    · cases e
  · rintro ⟨b, hb, hn, θ, e⟩
    obtain ⟨i, hi, rfl⟩ := List.getElem_of_mem hb
    refine ⟨θ, fun _ => ⟨i, hi⟩, ?_, ?_⟩
    · intro i j _; exact Fin.ext (by have := i.2; have := j.2; simp at *)
    · intro j
      have : j = ⟨0, by simp⟩ := Fin.ext (by have := j.2; simp at *)
      subst this
      exact ⟨hn, Or.inl e⟩

/-- an injective map needs room -/
theorem fin_le {n m : Nat} (f : Fin n → Fin m) (hf : ∀ i j, f i = f j → i = j) : n ≤ m := by
  induction n generalizing m with
  | zero => omega
  | succ n ih =>
    cases m with
    | zero => exact absurd (f 0).2 (by omega)
    | succ m =>
      have : n ≤ m := by
        -- remove the value of the last element
        let v := (f (Fin.last n)).1
        have hv : v < m + 1 := (f (Fin.last n)).2
        have hne : ∀ i : Fin n, (f i.castSucc).1 ≠ v := by
          intro i e
          have := hf _ _ (Fin.ext e)
          have := congrArg Fin.val this
          have := i.2
          simp at *; omega
        refine ih (fun i => ⟨if (f i.castSucc).1 < v then (f i.castSucc).1 else (f i.castSucc).1 - 1, ?_⟩) ?_
        · have := hne i
          have := (f i.castSucc).2
          split <;> omega
        · intro i j e
          have h1 := hne i
          have h2 := hne j
          simp only [Fin.mk.injEq] at e
          have : (f i.castSucc).1 = (f j.castSucc).1 := by
            split at e <;> split at e <;> omega
          have := hf _ _ (Fin.ext this)
          exact Fin.ext (by simpa using congrArg Fin.val this)
      omega

/-- does the clause contain two or more literals stored as a rule? (only then answer literals
are treated specially) -/
def Cl.multi : Cl → Bool
  | .fact _ => false
  | .rule ls => decide (2 ≤ ls.length)

/-- C11 (partial): subsumption answers yes exactly when the general clause subsumes the
specific one.  `Desc`: the specific clause is sorted as wr_sort_cl leaves it (C34).
With `required_answer_nr==1` (`ans`) answer literals of clauses with two or more literals
count as equal.  Missing: general clauses containing numbers (C07), atoms beginning with more
than 2147 constants (C10). -/
theorem C11_subsume_exact_partial (h : Const → Int) (hh : ∀ c, 1 ≤ h c ∧ h c ≤ 999997)
    (ans : Bool) (g s : Cl) (hg : AtomsOk g.lits) (hs : AtomsOk s.lits)
    (hne : g.lits ≠ []) (hnum : ∀ l ∈ g.lits, hasNum l.atom = false)
    (hgf : ∀ a, g = .fact a → vars a = []) (hsf : ∀ a, s = .fact a → vars a = [])
    (hd : ∀ ls, s = .rule ls → Desc (ls.map (Lit.stored h))) :
    ∃ r, subsumeCl ans (g.stored h) (s.stored h) = some r ∧
      (r = true ↔ SubsumesWith (ans && g.multi) g.lits s.lits) := by
  have hh : HashOk h := hh
  cases g with
  | fact a =>
    have ha := hgf a rfl
    have hsub : ∀ θ, subst θ a = a := fun θ => subst_of_allc ((allc_iff_vars a).2 ha) θ
    rw [show (ans && (Cl.fact a).multi) = false by simp [Cl.multi]]
    cases s with
    | fact b =>
      refine ⟨eqTerm a b, rfl, ?_⟩
      rw [eqTerm_iff]
      show _ ↔ SubsumesWith false [⟨false, a⟩] [⟨false, b⟩]
      rw [subsumes_one]
      simp [hsub]
    | rule ls =>
      refine ⟨factLoop a (ls.map (Lit.stored h)), rfl, ?_⟩
      rw [factLoop_spec hh ha ls hs (hd ls rfl)]
      show _ ↔ SubsumesWith false [⟨false, a⟩] ls
      rw [subsumes_one]
      constructor
      · rintro ⟨b, hb, h1, h2⟩; exact ⟨b, hb, h1.symm, fun v => .var v, by rw [hsub, h2]⟩
      · rintro ⟨b, hb, h1, θ, h2⟩; exact ⟨b, hb, h1.symm, by rw [← h2, hsub]⟩
  | rule gl =>
    cases s with
    | fact b =>
      show ∃ r, subsumeCl ans (.rule (gl.map (Lit.stored h))) (.fact b) = some r ∧
        (r = true ↔ SubsumesWith _ gl [⟨false, b⟩])
      match gl, hne with
      | [l1], _ =>
        have h1 := hg l1 (by simp [Cl.lits])
        have hn1 := hnum l1 (by simp [Cl.lits])
        rw [show (ans && (Cl.rule [l1]).multi) = false by simp [Cl.multi], subsumes_one]
        simp only [subsumeCl, List.map_cons, List.map_nil, List.length_singleton]
        rw [if_neg (by omega), show (l1.stored h).word = l1.word h from rfl,
          isNegW_iff hh h1.2, show (l1.stored h).atom = l1.atom from rfl]
        split
        · next hneg => exact ⟨false, rfl, by simp [hneg]⟩
        · next hneg =>
          have hneg : l1.neg = false := by simpa using hneg
          cases hm : matchT St.empty l1.atom b with
          | ub => exact absurd hm (matchT_no_ub _ _ _ hn1)
          | ok st =>
            refine ⟨true, rfl, ?_⟩
            simp only [true_iff]
            exact ⟨⟨false, b⟩, by simp, hneg, st.val, (matchT_sound _ _ _ _ hm).2.1⟩
          | fail st =>
            refine ⟨false, rfl, ?_⟩
            simp only [Bool.false_eq_true, false_iff]
            rintro ⟨c, hc, _, θ, e⟩
            have : c = ⟨false, b⟩ := by simpa using hc
            subst this
            obtain ⟨s', hs', _⟩ := matchT_complete l1.atom St.empty θ (agrees_empty θ)
            rw [e] at hs'; rw [hm] at hs'; cases hs'
      | l1 :: l2 :: gl, _ =>
        refine ⟨false, ?_, ?_⟩
        · simp only [subsumeCl, List.map_cons, List.length_cons]
          rw [if_pos (by omega)]
        · simp only [Bool.false_eq_true, false_iff]
          rintro ⟨θ, f, f1, _⟩
          have := fin_le f f1
          simp at this
    | rule sl =>
      have hd := hd sl rfl
      show ∃ r, subsumeCl ans (.rule (gl.map (Lit.stored h))) (.rule (sl.map (Lit.stored h))) =
        some r ∧ (r = true ↔ SubsumesWith _ gl sl)
      match gl, hne with
      | [l1], _ =>
        have h1 := hg l1 (by simp [Cl.lits])
        have hn1 := hnum l1 (by simp [Cl.lits])
        rw [show (ans && (Cl.rule [l1]).multi) = false by simp [Cl.multi], subsumes_one]
        have := unitLoop_spec hh h1 hn1 sl hs hd
        have e : subsumeCl ans (.rule ([l1].map (Lit.stored h))) (.rule (sl.map (Lit.stored h)))
          = unitLoop (l1.stored h) (sl.map (Lit.stored h)) := by simp [subsumeCl]
        rw [e]
        obtain ⟨r, hr⟩ := Option.ne_none_iff_exists'.1 this.1
        refine ⟨r, hr, ?_⟩
        rw [← this.2, hr]; simp
      | l1 :: l2 :: gl, _ =>
        rw [show (ans && (Cl.rule (l1 :: l2 :: gl)).multi) = ans by simp [Cl.multi]]
        have e : subsumeCl ans (.rule ((l1 :: l2 :: gl).map (Lit.stored h)))
            (.rule (sl.map (Lit.stored h))) =
            if (l1 :: l2 :: gl).length > sl.length then some false
            else (subsAux ans (sl.map (Lit.stored h)) ((l1 :: l2 :: gl).map (Lit.stored h))
              (fun _ => false) St.empty).map Prod.fst := by
          simp only [subsumeCl, List.length_map]
          rw [if_neg (by simp)]
        rw [e]
        split
        · next hlen =>
          refine ⟨false, rfl, ?_⟩
          simp only [Bool.false_eq_true, false_iff]
          rintro ⟨θ, f, f1, _⟩
          have := fin_le f f1
          omega
        · have hno := subsAux_no_ub (ans := ans) (sl := sl.map (Lit.stored h))
            ((l1 :: l2 :: gl).map (Lit.stored h))
            (by
              intro l hl
              obtain ⟨a, ha, rfl⟩ := List.mem_map.1 hl
              exact hnum a ha) (fun _ => false) St.empty
          obtain ⟨⟨r, st⟩, hr⟩ := Option.ne_none_iff_exists'.1 hno
          refine ⟨r, by rw [hr]; rfl, ?_⟩
          have hspec := subsAux_spec ans (sl.map (Lit.stored h))
            ((l1 :: l2 :: gl).map (Lit.stored h)) (fun _ => false) St.empty
          cases r with
          | true =>
            simp only [true_iff]
            have := (hspec.1 st hr).2 st.val (val_agrees st)
            obtain ⟨f, f1, _, f3⟩ := (emb_iff hh hs (l1 :: l2 :: gl) hg _).1 this
            exact ⟨st.val, f, f1, f3⟩
          | false =>
            simp only [Bool.false_eq_true, false_iff]
            rintro ⟨θ, f, f1, f3⟩
            have hemb := (emb_iff hh hs (l1 :: l2 :: gl) hg (fun _ => false)).2
              ⟨f, f1, fun _ => rfl, f3⟩
            exact subsAux_complete _ (good_stored hh hg hs hd) _ St.empty (by simp [Cl.lits])
              (agrees_empty θ) hemb st hr

/-- C11: whatever the order of the literals, a yes answer of the search on rule clauses is
right (no assumption on sorting or on numbers), so that the specific clause follows from the
general one. -/
theorem C11_subsume_yes_implies (h : Const → Int) (hh : ∀ c, 1 ≤ h c ∧ h c ≤ 999997)
    (gl sl : List Lit) (hg : AtomsOk gl) (hs : AtomsOk sl)
    (hyes : subsumeCl false ((Cl.rule gl).stored h) ((Cl.rule sl).stored h) = some true)
    (I : Interp) (ht : ClTrue I gl) : ClTrue I sl := by
  have hh : HashOk h := hh
  suffices hS : SubsumesWith false gl sl by
    obtain ⟨θ, f, _, f3⟩ := hS
    intro ρ
    obtain ⟨l, hl, htl⟩ := ht (fun v => eval I ρ (θ v))
    obtain ⟨i, hi, rfl⟩ := List.getElem_of_mem hl
    have := f3 ⟨i, hi⟩
    refine ⟨sl[f ⟨i, hi⟩], List.getElem_mem _, ?_⟩
    have e : (gl[i]).subst θ = sl[f ⟨i, hi⟩] := by
      rcases this.2 with e | ⟨e, _⟩
      · have h1 := this.1
        unfold Lit.subst
        simp only [Fin.getElem_fin] at h1 e ⊢
        rw [e, h1]
      · cases e
    rw [← e, Lit.tr_subst]; exact htl
  match gl with
  | [] =>
    exact ⟨fun v => .var v, fun i => absurd i.2 (by simp), fun i => absurd i.2 (by simp),
      fun i => absurd i.2 (by simp)⟩
  | [l1] =>
    rw [subsumes_one]
    have e : subsumeCl false (.rule ([l1].map (Lit.stored h))) (.rule (sl.map (Lit.stored h)))
      = unitLoop (l1.stored h) (sl.map (Lit.stored h)) := by simp [subsumeCl]
    rw [show (Cl.rule [l1]).stored h = .rule ([l1].map (Lit.stored h)) from rfl,
      show (Cl.rule sl).stored h = .rule (sl.map (Lit.stored h)) from rfl, e] at hyes
    clear e
    have h1 := hg l1 List.mem_cons_self
    induction sl with
    | nil => simp [unitLoop] at hyes
    | cons b sl ih =>
      have hb := hs b List.mem_cons_self
      have ih := ih (fun l hl => hs l (List.mem_cons_of_mem _ hl))
      have ih' : unitLoop (l1.stored h) (sl.map (Lit.stored h)) = some true →
          ∃ c ∈ b :: sl, l1.neg = c.neg ∧ ∃ θ, subst θ l1.atom = c.atom := by
        intro hu
        obtain ⟨c, hc, hr⟩ := ih hu
        exact ⟨c, List.mem_cons_of_mem _ hc, hr⟩
      rw [List.map_cons] at hyes
      unfold unitLoop at hyes
      split at hyes
      · cases hyes
      · split at hyes
        · next hc =>
          have hneg : l1.neg = b.neg := by
            rw [show (l1.stored h).word = l1.word h from rfl,
              show (b.stored h).word = b.word h from rfl, negPol_iff hh h1.2 hb.2] at hc
            simp at hc; exact hc.1
          cases hm : matchT St.empty (l1.stored h).atom (b.stored h).atom with
          | ub => rw [hm] at hyes; cases hyes
          | ok s => exact ⟨b, List.mem_cons_self, hneg, s.val, (matchT_sound _ _ _ _ hm).2.1⟩
          | fail s => rw [hm] at hyes; exact ih' hyes
        · exact ih' hyes
  | l1 :: l2 :: gl =>
    simp only [subsumeCl, Cl.stored, List.length_map] at hyes
    rw [if_neg (by simp)] at hyes
    split at hyes
    · cases hyes
    · cases hr : subsAux false (sl.map (Lit.stored h)) ((l1 :: l2 :: gl).map (Lit.stored h))
        (fun _ => false) St.empty with
      | none => rw [hr] at hyes; cases hyes
      | some p =>
        obtain ⟨r, st⟩ := p
        rw [hr] at hyes
        have : r = true := by simpa using hyes
        subst this
        have := ((subsAux_spec false _ _ _ _).1 st hr).2 st.val (val_agrees st)
        obtain ⟨f, f1, _, f3⟩ := (emb_iff hh hs (l1 :: l2 :: gl) hg _).1 this
        exact ⟨st.val, f, f1, f3⟩

/-- a clause set for the examples: `p(X) | p(Y) | q(X,Y)` and `q(a,b) | p(a) | p(b)`, sorted -/
def exG : List Lit :=
  [⟨false, ap "q" [.var 0, .var 1]⟩, ⟨false, ap "p" [.var 0]⟩, ⟨false, ap "p" [.var 1]⟩]
/-- see `exG` -/
def exS : List Lit :=
  [⟨false, ap "q" [cn "a", cn "b"]⟩, ⟨false, ap "p" [cn "b"]⟩, ⟨false, ap "p" [cn "a"]⟩]

theorem ex_ok (ls : List Lit) (h : ∀ l ∈ ls, (match l.atom with | .app _ _ => true | _ => false) = true ∧
    (pre l.atom).length ≤ 2147) : AtomsOk ls := by
  intro l hl
  refine ⟨?_, (h l hl).2⟩
  have := (h l hl).1
  split at this
  · exact ⟨_, _, by assumption⟩
  · cases this

example : AtomsOk exG ∧ AtomsOk exS ∧ (∀ l ∈ exG, hasNum l.atom = false) ∧
    Desc (exS.map (Lit.stored hbig)) ∧
    subsumeCl false ((Cl.rule exG).stored hbig) ((Cl.rule exS).stored hbig) = some true :=
  ⟨ex_ok _ (by decide), ex_ok _ (by decide), by decide, by unfold Desc; decide, by decide⟩

end Gkc.Props
