import Verif.ClauseMetaLemmas
import Verif.Props.Subsume
import Mathlib.Data.List.Nodup
/-
C12: the quick check on clause summaries.
-/
namespace Gkc.Props
open Gkc Term

/-- subsumption leaves the specific clause as an instance of the general one plus more
literals -/
theorem subsumes_perm {gl sl : List Lit} (h : SubsumesWith false gl sl) :
    ∃ θ rest, sl.Perm (gl.map (Lit.subst θ) ++ rest) := by
  obtain ⟨θ, f, hf, hm⟩ := h
  have e1 : (List.finRange sl.length).map (fun i => sl[i]) = sl := by
    apply List.ext_getElem <;> simp
  have e2 : gl.map (Lit.subst θ) = ((List.finRange gl.length).map f).map (fun i => sl[i]) := by
    apply List.ext_getElem
    · simp
    · intro i h1 h2
      have h1 : i < gl.length := by simpa using h1
      have := hm ⟨i, h1⟩
      simp only [List.getElem_map, List.getElem_finRange]
      simp only [Fin.getElem_fin] at this ⊢
      have e : subst θ gl[i].atom = sl[(f ⟨i, h1⟩).1].atom := by
        rcases this.2 with e | ⟨e, _⟩
        · exact e
        · cases e
      unfold Lit.subst
      rw [this.1, e]
      rfl
  have nd : ((List.finRange gl.length).map f).Nodup := by
    refine List.Nodup.map_on ?_ (List.nodup_finRange _)
    intro x _ y _ h; exact hf x y h
  have sp : ((List.finRange gl.length).map f).Subperm (List.finRange sl.length) :=
    List.subperm_of_subset nd (by intro x _; exact List.mem_finRange x)
  obtain ⟨l, hl1, hl2⟩ := sp
  obtain ⟨rest, hr⟩ := hl2.exists_perm_append
  have hr2 := (hr.trans (hl1.append_right rest)).map (fun i => sl[i])
  rw [e1, List.map_append, ← e2] at hr2
  exact ⟨θ, _, hr2⟩

/-- the number of symbols, negative literals, variable-free literals, the greatest nesting depth
and the longest beginning with only constants -/
def symCount (ls : List Lit) : Nat := (ls.map (fun l => size l.atom)).sum

theorem litSize_eq (ls : List Lit) : litSize ls = symCount ls := by
  induction ls with
  | nil => rfl
  | cons l ls ih => simp [litSize, symCount, ih]

/-- a counted quantity is exactly 255, which is stored as 0 -/
def Hits255 (ls : List Lit) : Prop :=
  ls.length = 255 ∨ ls.countP (fun l => l.neg) = 255 ∨
  ls.countP (fun l => decide (vars l.atom = [])) = 255 ∨
  symCount ls = 255 ∨ mx (fun l => dep l.atom) ls = 255 ∨
  mx (fun l => (pre l.atom).length) ls = 255

/-- no variables in the clause -/
def GroundCl (ls : List Lit) : Prop := ∀ l ∈ ls, vars l.atom = []

theorem gr_iff (l : Lit) : l.gr = decide (vars l.atom = []) := by
  have := allc_iff_vars l.atom
  unfold Lit.gr
  cases h : allc (syms l.atom) <;> simp [h] at this <;> simp [this]

theorem cnt_gr (ls : List Lit) : cnt Lit.gr ls = ls.countP (fun l => decide (vars l.atom = [])) := by
  unfold cnt; congr 1; funext l; exact gr_iff l

theorem any_gr (ls : List Lit) : ls.any (fun l => !l.gr) = false ↔ GroundCl ls := by
  simp only [List.any_eq_false, gr_iff]
  unfold GroundCl
  constructor
  · intro h l hl; have := h l hl; simpa using this
  · intro h l hl; simpa using h l hl

/-- the fields of the packed words -/
theorem pack_lengths (c : CMeta) : c.pack.lengths =
    (if c.hasvars then 0 else 1) * 2 ^ 24 + limitByte c.length * 2 ^ 16 +
      limitByte c.neglength * 2 ^ 8 + limitByte c.groundlength :=
  pack4 (limitByte_lt _) (limitByte_lt _) (limitByte_lt _)

theorem pack_sizes (c : CMeta) : c.pack.sizes =
    limitByte c.depth * 2 ^ 16 + limitByte c.size * 2 ^ 8 + limitByte c.preflen := by
  have := pack4 (a := 0) (limitByte_lt c.depth) (limitByte_lt c.size) (limitByte_lt c.preflen)
  simp only [Nat.zero_shiftLeft, Nat.zero_or, Nat.zero_mul, Nat.zero_add] at this
  exact this

theorem field16 {a b c d : Nat} (hb : b < 256) (hc : c < 256) (hd : d < 256) :
    (a * 2 ^ 24 + b * 2 ^ 16 + c * 2 ^ 8 + d) / 2 ^ 16 % 256 = b := by omega
theorem field8 {a b c d : Nat} (hc : c < 256) (hd : d < 256) :
    (a * 2 ^ 24 + b * 2 ^ 16 + c * 2 ^ 8 + d) / 2 ^ 8 % 256 = c := by omega
theorem field0 {a b c d : Nat} (hd : d < 256) :
    (a * 2 ^ 24 + b * 2 ^ 16 + c * 2 ^ 8 + d) / 2 ^ 0 % 256 = d := by omega
theorem field8' {b c d : Nat} (hc : c < 256) (hd : d < 256) :
    (b * 2 ^ 16 + c * 2 ^ 8 + d) / 2 ^ 8 % 256 = c := by omega
theorem field0' {b c d : Nat} (hd : d < 256) :
    (b * 2 ^ 16 + c * 2 ^ 8 + d) / 2 ^ 0 % 256 = d := by omega

/-- C12 (partial): if the general clause subsumes the specific one, the quick check lets the
full test run.  Missing: (1) a general clause without variables against a specific one with
variables (always rejected, `C12_ground_general_rejected`); (2) specific clauses one of whose
counts is exactly 255 (`C12_count_255_rejected`); (3) specific fact clauses, whose summary is
never computed (`C12_fact_never_subsumed`). -/
theorem C12_clause_check_admissible_partial (h : Const → Int)
    (hh : ∀ c, 1 ≤ h c ∧ h c ≤ 999997) (gl sl : List Lit)
    (hg : ∀ l ∈ gl, ∃ p as, l.atom = .app p as) (hs : ∀ l ∈ sl, ∃ p as, l.atom = .app p as)
    (hsub : SubsumesWith false gl sl)
    (h255 : ¬ Hits255 sl) (hgr : GroundCl gl → GroundCl sl) :
    canSubsume (ruleBlock h gl) (ruleBlock h sl) = true := by
  have hh : HashOk h := hh
  obtain ⟨θ, rest, hp⟩ := subsumes_perm hsub
  have mg := ruleMeta_is hh gl hg
  have ms := ruleMeta_is hh sl hs
  unfold ruleBlock
  generalize clMetaLoop h {} { length := gl.length } gl = cg at *
  generalize clMetaLoop h {} { length := sl.length } sl = cs at *
  simp only [Hits255, not_or] at h255
  -- each literal of gl has an instance in sl
  have hin : ∀ l ∈ gl, l.subst θ ∈ sl := fun l hl =>
    hp.mem_iff.2 (List.mem_append_left _ (List.mem_map_of_mem hl))
  have hpre : ∀ l : Lit, pre l.atom <+: pre (l.subst θ).atom := fun l => (ref_subst θ l.atom).pre
  -- counted quantities
  have len : gl.length ≤ sl.length := by rw [hp.length_eq]; simp
  have neg : cnt Lit.neg gl ≤ cnt Lit.neg sl := by
    unfold cnt
    rw [hp.countP_eq, List.countP_append, List.countP_map]
    have : (Lit.neg ∘ Lit.subst θ) = Lit.neg := rfl
    rw [this]; omega
  have grd : cnt Lit.gr gl ≤ cnt Lit.gr sl := by
    unfold cnt
    rw [hp.countP_eq, List.countP_append, List.countP_map]
    have : gl.countP Lit.gr ≤ gl.countP (Lit.gr ∘ Lit.subst θ) := by
      apply List.countP_mono_left
      intro l _ hl
      have e : (l.subst θ).atom = l.atom := subst_of_allc hl θ
      show allc (syms (l.subst θ).atom) = true
      rw [e]; exact hl
    omega
  have siz : litSize gl ≤ litSize sl := by
    rw [litSize_perm hp, litSize_append]
    have : litSize gl ≤ litSize (gl.map (Lit.subst θ)) := by
      clear hp mg hg hsub hgr hin neg grd len
      induction gl with
      | nil => simp [litSize]
      | cons l gl ih =>
        have := size_le_subst θ l.atom
        simp only [List.map_cons, litSize, Lit.subst] at *; omega
    omega
  have dpt : mx (fun l => dep l.atom) gl ≤ mx (fun l => dep l.atom) sl := by
    rw [mx_le]; intro l hl
    exact Nat.le_trans (dep_subst θ l.atom) (le_mx (f := fun l => dep l.atom) (hin l hl))
  have prl : mx (fun l => (pre l.atom).length) gl ≤ mx (fun l => (pre l.atom).length) sl := by
    rw [mx_le]; intro l hl
    exact Nat.le_trans (hpre l).length_le (le_mx (f := fun l => (pre l.atom).length) (hin l hl))
  -- the packed words
  have f1 : limitByte cg.length ≤ limitByte cs.length := by
    apply limitByte_mono
    · rw [mg.length, ms.length]; exact len
    · rw [ms.length]; exact h255.1
  have f2 : limitByte cg.neglength ≤ limitByte cs.neglength := by
    apply limitByte_mono
    · rw [mg.neglength, ms.neglength]; exact Nat.add_le_add_left neg _
    · rw [ms.neglength, Nat.zero_add]; exact h255.2.1
  have f3 : limitByte cg.groundlength ≤ limitByte cs.groundlength := by
    apply limitByte_mono
    · rw [mg.groundlength, ms.groundlength]; exact Nat.add_le_add_left grd _
    · rw [ms.groundlength, Nat.zero_add, cnt_gr]; exact h255.2.2.1
  have f4 : limitByte cg.size ≤ limitByte cs.size := by
    apply limitByte_mono
    · rw [mg.size, ms.size]; exact Nat.add_le_add_left siz _
    · rw [ms.size, Nat.zero_add, litSize_eq]; exact h255.2.2.2.1
  have f5 : limitByte cg.depth ≤ limitByte cs.depth := by
    apply limitByte_mono
    · rw [mg.depth, ms.depth]; simp only; omega
    · rw [ms.depth, Nat.zero_max]; exact h255.2.2.2.2.1
  have f6 : limitByte cg.preflen ≤ limitByte cs.preflen := by
    apply limitByte_mono
    · rw [mg.preflen, ms.preflen]; simp only; omega
    · rw [ms.preflen, Nat.zero_max]; exact h255.2.2.2.2.2
  have f0 : (if cg.hasvars then 0 else 1) ≤ (if cs.hasvars then 0 else 1) := by
    rw [mg.hasvars, ms.hasvars, Bool.false_or, Bool.false_or]
    cases hx : gl.any (fun l => !l.gr) with
    | true => simp
    | false => rw [(any_gr sl).2 (hgr ((any_gr gl).1 hx))]; simp
  have g1 : (if cg.hasvars then 0 else 1) < 2 := by split <;> omega
  have g2 : (if cs.hasvars then 0 else 1) < 2 := by split <;> omega
  have l1 := limitByte_lt cg.length
  have l2 := limitByte_lt cs.length
  have l3 := limitByte_lt cg.neglength
  have l4 := limitByte_lt cs.neglength
  have l5 := limitByte_lt cg.groundlength
  have l6 := limitByte_lt cs.groundlength
  have l7 := limitByte_lt cg.size
  have l8 := limitByte_lt cs.size
  have l9 := limitByte_lt cg.preflen
  have l10 := limitByte_lt cs.preflen
  have z : limitByte cg.length = 0 → limitByte cs.length = 0 →
      limitByte cg.neglength = limitByte cs.neglength := by
    intro _ h2
    have : cs.length = 0 := by
      rw [ms.length] at h2 ⊢
      have := h255.1
      unfold limitByte at h2
      simp only at *
      split at h2
      · exact h2
      · split at h2 <;> omega
    have hsl : sl = [] := by rw [ms.length] at this; simpa using this
    have hgl : gl = [] := by subst hsl; simpa using len
    rw [mg.neglength, ms.neglength, hsl, hgl]
  have m16 : (0xFF0000 : Nat) = 255 * 2 ^ 16 := rfl
  have m8 : (0xFF00 : Nat) = 255 * 2 ^ 8 := rfl
  have m0 : (0xFF : Nat) = 255 * 2 ^ 0 := rfl
  have sb1 : cg.pack.bits1 &&& cs.pack.bits1 = cg.pack.bits1 := by
    apply and_sub
    intro k hk
    rcases (mg.bits1 k).1 hk with h0 | ⟨l, hl, x, hx, hk⟩
    · simp at h0
    · refine (ms.bits1 k).2 (Or.inr ⟨_, hin l hl, x, ?_, hk⟩)
      obtain ⟨r, hr⟩ := hpre l
      rw [← hr]
      cases hq : pre l.atom with
      | nil => rw [hq] at hx; cases hx
      | cons a as => rw [hq] at hx; exact hx
  have sb2 : cg.pack.bits2 &&& cs.pack.bits2 = cg.pack.bits2 := by
    apply and_sub
    intro k hk
    rcases (mg.bits2 k).1 hk with h0 | ⟨l, hl, x, hx, hk⟩
    · simp at h0
    · refine (ms.bits2 k).2 (Or.inr ⟨_, hin l hl, x, ?_, hk⟩)
      obtain ⟨r, hr⟩ := hpre l
      rw [← hr]
      match hq : pre l.atom with
      | [] => rw [hq] at hx; cases hx
      | [a] => rw [hq] at hx; cases hx
      | a :: b :: as => rw [hq] at hx; exact hx
  have sb3 : cg.pack.bits3 &&& cs.pack.bits3 = cg.pack.bits3 := by
    apply and_sub
    intro k hk
    rcases (mg.bits3 k).1 hk with h0 | ⟨l, hl, x, hx, hk⟩
    · simp at h0
    · refine (ms.bits3 k).2 (Or.inr ⟨_, hin l hl, x, ?_, hk⟩)
      obtain ⟨r, hr⟩ := hpre l
      rw [← hr]
      match hq : pre l.atom with
      | [] => rw [hq] at hx; cases hx
      | [a] => rw [hq] at hx; cases hx
      | [a, b] => rw [hq] at hx; cases hx
      | a :: b :: c :: as => rw [hq] at hx; exact hx
  unfold canSubsume
  rw [m0, m8, m16]
  simp only [mask_at, pack_lengths, pack_sizes, field16 l1 l3 l5, field16 l2 l4 l6, field8 l3 l5,
    field8 l4 l6, field0 l5, field0 l6, field8' l7 l9, field8' l8 l10, field0' l9, field0' l10]
  generalize limitByte cg.length = a1 at *
  generalize limitByte cs.length = a2 at *
  generalize limitByte cg.neglength = a3 at *
  generalize limitByte cs.neglength = a4 at *
  generalize limitByte cg.groundlength = a5 at *
  generalize limitByte cs.groundlength = a6 at *
  generalize limitByte cg.size = a7 at *
  generalize limitByte cs.size = a8 at *
  generalize limitByte cg.preflen = a9 at *
  generalize limitByte cs.preflen = a10 at *
  generalize limitByte cg.depth = a11 at *
  generalize limitByte cs.depth = a12 at *
  generalize (if cg.hasvars then 0 else 1) = b1 at *
  generalize (if cs.hasvars then 0 else 1) = b2 at *
  rw [if_neg (by omega), if_neg (by omega), if_neg (by omega), if_neg (by omega),
    if_neg (by omega), if_neg (by omega), if_neg (by omega), if_neg (by omega),
    if_neg (by simp [sb1]), if_neg (by simp [sb2]), if_neg (by simp [sb3])]

/-- C12 is false for a general clause without variables: it is rejected against every specific
clause with a variable, even one that contains all its literals. -/
theorem C12_ground_general_rejected (h : Const → Int) (hh : ∀ c, 1 ≤ h c ∧ h c ≤ 999997)
    (gl sl : List Lit)
    (hg : ∀ l ∈ gl, ∃ p as, l.atom = .app p as) (hs : ∀ l ∈ sl, ∃ p as, l.atom = .app p as)
    (h1 : GroundCl gl) (h2 : ¬ GroundCl sl) :
    canSubsume (ruleBlock h gl) (ruleBlock h sl) = false := by
  have hh : HashOk h := hh
  have mg := ruleMeta_is hh gl hg
  have ms := ruleMeta_is hh sl hs
  unfold ruleBlock
  generalize clMetaLoop h {} { length := gl.length } gl = cg at *
  generalize clMetaLoop h {} { length := sl.length } sl = cs at *
  have e1 : cg.hasvars = false := by
    rw [mg.hasvars, (any_gr gl).2 h1]; rfl
  have e2 : cs.hasvars = true := by
    rw [ms.hasvars]
    cases hx : sl.any (fun l => !l.gr) with
    | true => rfl
    | false => exact absurd ((any_gr sl).1 hx) h2
  have l2 := limitByte_lt cs.length
  have l4 := limitByte_lt cs.neglength
  have l6 := limitByte_lt cs.groundlength
  unfold canSubsume
  rw [if_pos]
  rw [pack_lengths, pack_lengths, e1, e2]
  simp only [Bool.false_eq_true, if_false, if_true]
  omega

/-- C12 is false for specific clauses stored as facts: no rule clause with one or more literals
and fewer than 255 symbols passes the check against a fact. -/
theorem C12_fact_never_subsumed (h : Const → Int) (hh : ∀ c, 1 ≤ h c ∧ h c ≤ 999997)
    (gl : List Lit) (hg : ∀ l ∈ gl, ∃ p as, l.atom = .app p as) (hne : gl ≠ [])
    (hsz : symCount gl < 255) :
    canSubsume (ruleBlock h gl) factBlock = false := by
  have hh : HashOk h := hh
  have mg := ruleMeta_is hh gl hg
  unfold ruleBlock
  generalize clMetaLoop h {} { length := gl.length } gl = cg at *
  have hpos : 0 < symCount gl := by
    cases gl with
    | nil => exact absurd rfl hne
    | cons l gl => have := size_pos l.atom; simp [symCount]; omega
  have e : limitByte cg.size = symCount gl := by
    rw [mg.size, litSize_eq]; simp only [Nat.zero_add, limitByte]; rw [if_pos hsz]
  have hx : cg.pack.sizes > factBlock.sizes := by
    rw [pack_sizes, e, show factBlock.sizes = 0 from rfl]; omega
  unfold canSubsume
  repeat' split
  all_goals first
    | rfl
    | (exfalso; omega)

/-- a list of `n` constants -/
def cons255 (n : Nat) : List Term := List.replicate n (cn "c")

theorem size_cons255 (n : Nat) : sizeL (cons255 n) = n := by
  induction n with
  | zero => rfl
  | succ n ih =>
    rw [show cons255 (n + 1) = cn "c" :: cons255 n from rfl, sizeL_cons, ih]
    simp [cn]; omega

/-- C12 is false when a count is exactly 255: `p(Y,X)` subsumes `p(f(c,..,c),X)` with 252
arguments of `f` (255 symbols) but is rejected. -/
theorem C12_count_255_rejected (h : Const → Int) (hh : ∀ c, 1 ≤ h c ∧ h c ≤ 999997) :
    let gl : List Lit := [⟨false, ap "p" [.var 1, .var 0]⟩]
    let sl : List Lit := [⟨false, ap "p" [ap "f" (cons255 252), .var 0]⟩]
    SubsumesWith false gl sl ∧ symCount sl = 255 ∧
      canSubsume (ruleBlock h gl) (ruleBlock h sl) = false := by
  intro gl sl
  have hh : HashOk h := hh
  have hsz : symCount sl = 255 := by
    simp only [symCount, sl, List.map_cons, List.map_nil, List.sum_cons, List.sum_nil, ap,
      size_app, sizeL_cons, sizeL_nil, size_cons255, size_var, Nat.reduceAdd]
  refine ⟨?_, hsz, ?_⟩
  · rw [subsumes_one]
    refine ⟨_, List.mem_singleton.2 rfl, rfl, fun v => if v = 1 then ap "f" (cons255 252) else .var v, ?_⟩
    simp [ap]
  · have mg := ruleMeta_is hh gl (by intro l hl; simp [gl] at hl; subst hl; exact ⟨_, _, rfl⟩)
    have ms := ruleMeta_is hh sl (by intro l hl; simp [sl] at hl; subst hl; exact ⟨_, _, rfl⟩)
    unfold ruleBlock
    generalize clMetaLoop h {} { length := gl.length } gl = cg at *
    generalize clMetaLoop h {} { length := sl.length } sl = cs at *
    have e1 : limitByte cg.size = 3 := by
      rw [mg.size]; simp [gl, litSize, ap, limitByte]
    have e2 : limitByte cs.size = 0 := by
      rw [ms.size, litSize_eq, hsz]; simp [limitByte]
    have l9 := limitByte_lt cg.preflen
    have l10 := limitByte_lt cs.preflen
    unfold canSubsume
    have m8 : (0xFF00 : Nat) = 255 * 2 ^ 8 := rfl
    rw [m8]
    have hc : cg.pack.sizes &&& (255 * 2 ^ 8) > cs.pack.sizes &&& (255 * 2 ^ 8) := by
      rw [mask_at, mask_at, pack_sizes, pack_sizes, e1, e2]; omega
    repeat' split
    all_goals first
      | rfl
      | contradiction

example : (∀ c, 1 ≤ hbig c ∧ hbig c ≤ 999997) ∧ SubsumesWith false exG exS ∧
    ¬ Hits255 exS ∧ ¬ GroundCl exG ∧
    canSubsume (ruleBlock hbig exG) (ruleBlock hbig exS) = true := by
  refine ⟨C10_prefix_hash_overflow.1, ?_, ?_, ?_, by decide⟩
  · refine ⟨fun v => if v = 0 then cn "a" else cn "b", fun i => match i with
      | ⟨0, _⟩ => ⟨0, by decide⟩
      | ⟨1, _⟩ => ⟨2, by decide⟩
      | ⟨2, _⟩ => ⟨1, by decide⟩, by decide, ?_⟩
    rintro ⟨i, hi⟩
    match i, hi with
    | 0, _ => exact ⟨by decide +revert, Or.inl (by decide +revert)⟩
    | 1, _ => exact ⟨by decide +revert, Or.inl (by decide +revert)⟩
    | 2, _ => exact ⟨by decide +revert, Or.inl (by decide +revert)⟩
  · unfold Hits255; decide
  · unfold GroundCl; decide

example : GroundCl [⟨false, ap "p" [cn "a"]⟩] ∧
    ¬ GroundCl [⟨false, ap "p" [cn "a"]⟩, ⟨false, ap "q" [.var 0]⟩] := by
  unfold GroundCl; decide

example : symCount [⟨false, ap "p" [.var 0]⟩] < 255 := by decide

end Gkc.Props
