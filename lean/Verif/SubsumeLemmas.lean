import Verif.Subsume
import Verif.MetaLemmas
import Verif.UnifyLemmas
/-
Lemmas for the literal quick check, the literal sort and subsumption.
-/
namespace Gkc
open Term

/-! ### Prefix hashes -/

/-- wr_term_basehash returns `1 + |x| % 999997` (Reasoner/hash.c:352-380) -/
def HashOk (h : Const → Int) : Prop := ∀ c, 1 ≤ h c ∧ h c ≤ 999997

theorem toI32_small {x : Int} (h0 : 0 ≤ x) (h1 : x < 2 ^ 31) : toI32 x = x := by
  unfold toI32
  obtain ⟨k, rfl⟩ := Int.eq_ofNat_of_zero_le h0
  rw [BitVec.ofInt_natCast, BitVec.toInt_eq_toNat_of_lt]
  · rw [BitVec.toNat_ofNat]; omega
  · rw [BitVec.toNat_ofNat]; omega

theorem leaf_prefhash {h : Const → Int} {m : TMeta} {c : Const} (hv : m.hasvars = false) :
    (m.leaf h (some c)).prefhash =
      toI32 (if m.prefhash + h c < 0 then 0 - (m.prefhash + h c) else m.prefhash + h c) := by
  unfold TMeta.leaf; simp only [hv]
  rw [if_neg (by simp)]; split; rfl; split; rfl; split <;> rfl

theorem consts_cons (h : Const → Int) (m : TMeta) (c : Const) (cs : List Const) :
    consts h m (c :: cs) = consts h (m.leaf h (some c)) cs := rfl

theorem consts_prefhash {h : Const → Int} (hh : HashOk h) : ∀ (cs : List Const) (m : TMeta),
    m.hasvars = false → 0 ≤ m.prefhash → m.prefhash + 999997 * cs.length < 2 ^ 31 →
    0 ≤ (consts h m cs).prefhash ∧ (consts h m cs).prefhash ≤ m.prefhash + 999997 * cs.length
  | [], m, _, h0, _ => by simp [consts]; exact h0
  | c :: cs, m, hv, h0, h1 => by
    have hc := hh c
    simp only [List.length_cons] at h1
    have e : (m.leaf h (some c)).prefhash = m.prefhash + h c := by
      rw [leaf_prefhash hv, if_neg (by omega), toI32_small (by omega) (by omega)]
    have := consts_prefhash hh cs (m.leaf h (some c)) (by rw [leaf_hasvars_some]; exact hv)
      (by omega) (by omega)
    rw [consts_cons]
    simp only [List.length_cons]
    omega

/-- the constants before the first variable of an atom, in print order -/
def pre (t : Term) : List Const := tw (syms t)

/-- an atom short enough for the prefix hash not to leave the range of `int` -/
def Short (t : Term) : Prop := (pre t).length ≤ 2147

theorem tw_length_le (l : List (Option Const)) : (tw l).length ≤ l.length := by
  induction l with
  | nil => simp [tw]
  | cons x l ih => cases x <;> simp [tw]; exact ih

theorem Short.of_size {t : Term} (h : size t ≤ 2147) : Short t := by
  have := tw_length_le (syms t)
  rw [syms_length] at this
  unfold Short pre; omega

/-- number stored in the hash field -/
theorem hash_field_ok {h : Const → Int} (hh : HashOk h) {t : Term} (hs : Short t) :
    ∃ n, n < 256 ∧ hashField (consts h {} (pre t)).prefhash = BitVec.ofNat 64 n := by
  have := consts_prefhash hh (pre t) {} rfl (by simp) (by unfold Short at hs; simp; omega)
  simp only at this
  unfold Short at hs
  exact hashField_toNat this.1 (by omega)

/-- the hash number of a prefix -/
noncomputable def hnum (h : Const → Int) (cs : List Const) : Nat :=
  (hashField (consts h {} cs).prefhash).toNat

theorem litWordIs {h : Const → Int} (hh : HashOk h) {l : Lit} (hs : Short l.atom) :
    WordIs (l.word h) (if l.neg then 1 else 0) (if allc (syms l.atom) then 1 else 0)
      (min 31 (size l.atom)) (min 31 (dep l.atom)) (min 7 (pre l.atom).length)
      (hnum h (pre l.atom)) := by
  obtain ⟨n, hn, e⟩ := hash_field_ok hh hs
  have e0 : hnum h (pre l.atom) = n := by
    unfold hnum; rw [e, BitVec.toNat_ofNat]; omega
  rw [e0]
  have e' : hashField (calcT h 0 {} l.atom).prefhash = BitVec.ofNat 64 n := by
    rw [calc_prefhash h _ _ rfl]; exact e
  have := wordIs (m := calcT h 0 {} l.atom) hn e' l.neg
  rw [calc_hasvars h _ _ rfl, calc_size h _ _ rfl, calc_preflen h _ _ rfl,
    calc_depth0 h _ _ rfl] at this
  simp only [Nat.zero_add] at this
  have eg : (if (!allc (syms l.atom)) = true then 0 else 1) = (if allc (syms l.atom) = true then 1 else 0) := by
    cases allc (syms l.atom) <;> rfl
  rw [eg] at this
  exact this

theorem size_le_subst (θ : Nat → Term) (t : Term) : size t ≤ size (subst θ t) := by
  have := (ref_subst θ t).len
  rwa [syms_length, syms_length] at this

theorem subst_of_allc {t : Term} (h : allc (syms t) = true) (θ : Nat → Term) : subst θ t = t := by
  have := (allc_iff_vars t).1 h
  calc subst θ t = subst (fun v => .var v) t := subst_congr (by rw [this]; simp)
    _ = t := subst_id t

theorem matchable_subst {h : Const → Int} (hh : HashOk h) {l l' : Lit} {θ : Nat → Term}
    (hs : Short l.atom) (hs' : Short l'.atom) (e : l.atom.subst θ = l'.atom) :
    matchable (l.word h) (l'.word h) = true := by
  have W := litWordIs hh hs
  have W' := litWordIs hh hs'
  have R := ref_subst θ l.atom
  rw [e] at R
  have hpre : pre l.atom <+: pre l'.atom := R.pre
  apply matchable_of W W'
  · cases ha : allc (syms l.atom) with
    | false => simp
    | true => rw [R.all ha, ha]; simp
  · have := size_le_subst θ l.atom; rw [e] at this; omega
  · have := dep_subst θ l.atom; rw [e] at this; omega
  · have := hpre.length_le; omega
  · intro hg
    have ha : allc (syms l.atom) = true := by
      cases ha : allc (syms l.atom) with
      | false => rw [ha] at hg; simp at hg
      | true => rfl
    have : l'.atom = l.atom := by rw [← e]; exact subst_of_allc ha θ
    rw [this]; simp
  · intro hp h7
    have hl : (pre l.atom).length = (pre l'.atom).length := by
      have := hpre.length_le; omega
    rw [hpre.eq_of_length hl]

theorem negPol_iff {h : Const → Int} (hh : HashOk h) {l l' : Lit}
    (hs : Short l.atom) (hs' : Short l'.atom) :
    negPol (l.word h) (l'.word h) = decide (l.neg ≠ l'.neg) := by
  rw [(litWordIs hh hs).negPol (litWordIs hh hs')]
  cases l.neg <;> cases l'.neg <;> simp

theorem isNegW_iff {h : Const → Int} (hh : HashOk h) {l : Lit} (hs : Short l.atom) :
    isNegW (l.word h) = l.neg := by
  rw [(litWordIs hh hs).isNeg]; cases l.neg <;> simp

theorem isGroundW_iff {h : Const → Int} (hh : HashOk h) {l : Lit} (hs : Short l.atom) :
    isGroundW (l.word h) = allc (syms l.atom) := by
  rw [(litWordIs hh hs).isGround]; cases allc (syms l.atom) <;> simp

/-! ### The order on words -/

theorem sortBigger_irrefl (a : BitVec 64) : sortBigger a a = false := by
  unfold sortBigger wgt; split <;> simp

theorem sortBigger_asymm {a b : BitVec 64} (h : sortBigger a b = true) : sortBigger b a = false := by
  unfold sortBigger wgt at *
  cases ga : isGroundW a <;> cases gb : isGroundW b <;> simp [ga, gb] at h ⊢ <;> omega

/-- "not bigger" is transitive -/
theorem notBigger_trans {a b c : BitVec 64} (h1 : sortBigger b a = false)
    (h2 : sortBigger c b = false) : sortBigger c a = false := by
  unfold sortBigger wgt at *
  cases ga : isGroundW a <;> cases gb : isGroundW b <;> cases gc : isGroundW c <;>
    simp [ga, gb, gc] at h1 h2 ⊢ <;> omega

/-- a word bigger than `a` is bigger than everything not bigger than `a` -/
theorem bigger_of {x a b : BitVec 64} (h1 : sortBigger b a = false) (h2 : sortBigger x a = true) :
    sortBigger x b = true := by
  cases h : sortBigger x b with
  | true => rfl
  | false => rw [notBigger_trans h1 h] at h2; exact h2

/-- a literal never is bigger than its instance (the quick early exit) -/
theorem not_sortBigger_of {w w' : BitVec 64} {n g s d p h n' g' s' d' p' h'}
    (H : WordIs w n g s d p h) (H' : WordIs w' n' g' s' d' p' h') (hn : n = n')
    (hg : g ≤ g') (hs : s ≤ s') (hd : d ≤ d') (hp : p ≤ p')
    (hgr : g = 1 → s = s' ∧ d = d' ∧ p = p' ∧ h = h') : sortBigger w w' = false := by
  unfold sortBigger
  rw [H.isGround, H'.isGround]
  have f := H.fits; have f' := H'.fits
  have f1 := f.n; have f2 := f.g; have f3 := f.s; have f4 := f.d; have f5 := f.p; have f6 := f.h
  have g1 := f'.n; have g2 := f'.g; have g3 := f'.s; have g4 := f'.d; have g5 := f'.p
  have g6 := f'.h
  have hl := packN_lt f; have hl' := packN_lt f'
  by_cases h1 : g = 1
  · obtain ⟨a, b, c, e⟩ := hgr h1
    have h2 : g' = 1 := by omega
    rw [wgt_iff (by rw [H.eq]; omega) (by rw [H'.eq]; omega), H.eq, H'.eq, hn, h1, h2, a, b, c, e]
    simp
  · have : g = 0 := by omega
    rw [decide_eq_false h1]
    by_cases h2 : g' = 1
    · simp [h2]
    · rw [decide_eq_false h2]
      simp only [Bool.false_eq_true, if_false]
      rw [wgt_iff, H.cansubs, H'.cansubs]
      · simp; unfold packN; omega
      · rw [H.cansubs]; unfold packN; omega
      · rw [H'.cansubs]; unfold packN; omega

theorem not_sortBigger_subst {h : Const → Int} (hh : HashOk h) {l l' : Lit} {θ : Nat → Term}
    (hs : Short l.atom) (hs' : Short l'.atom) (hn : l.neg = l'.neg)
    (e : l.atom.subst θ = l'.atom) :
    sortBigger (l.word h) (l'.word h) = false := by
  have W := litWordIs hh hs
  have W' := litWordIs hh hs'
  have R := ref_subst θ l.atom
  rw [e] at R
  have hpre : pre l.atom <+: pre l'.atom := R.pre
  apply not_sortBigger_of W W' (by rw [hn])
  · cases ha : allc (syms l.atom) with
    | false => simp
    | true => rw [R.all ha, ha]; simp
  · have := size_le_subst θ l.atom; rw [e] at this; omega
  · have := dep_subst θ l.atom; rw [e] at this; omega
  · have := hpre.length_le; omega
  · intro hg
    have ha : allc (syms l.atom) = true := by
      cases ha : allc (syms l.atom) with
      | false => rw [ha] at hg; simp at hg
      | true => rfl
    have : l'.atom = l.atom := by rw [← e]; exact subst_of_allc ha θ
    rw [this]; simp

/-! ### The literal sort -/

theorem sort2_of_bigger {lex : Term → Term → Nat} {j i : SLit}
    (h : sortBigger j.word i.word = true) : sort2Bigger lex j i = true := by
  unfold sortBigger at h
  unfold sort2Bigger
  cases gj : isGroundW j.word <;> cases gi : isGroundW i.word <;> simp [gj, gi] at h ⊢
  · left; exact h
  · left; exact h

theorem not_sort2_of_bigger {lex : Term → Term → Nat} {j i : SLit}
    (h : sortBigger i.word j.word = true) : sort2Bigger lex j i = false := by
  have h' := sortBigger_asymm h
  unfold sortBigger at h h'
  unfold sort2Bigger
  cases gj : isGroundW j.word <;> cases gi : isGroundW i.word <;> simp [gj, gi] at h h' ⊢
  · exact ⟨h', fun h0 => by rw [h] at h0; cases h0⟩
  · exact ⟨h', fun h0 => by rw [h] at h0; cases h0⟩

/-- sorted from right to left: no element is bigger than one to its left, i.e. later in the
list -/
def SortedRev (l : List SLit) : Prop :=
  l.Pairwise (fun a b => sortBigger a.word b.word = false)

theorem insRev_perm (lex : Term → Term → Nat) (x : SLit) (l : List SLit) :
    (insRev lex x l).Perm (x :: l) := by
  induction l with
  | nil => exact List.Perm.refl _
  | cons y ys ih =>
    unfold insRev; split
    · exact (List.Perm.cons y ih).trans (List.Perm.swap x y ys)
    · exact List.Perm.refl _

theorem insRev_sorted (lex : Term → Term → Nat) (x : SLit) (l : List SLit) (h : SortedRev l) :
    SortedRev (insRev lex x l) := by
  induction l with
  | nil => simp [insRev, SortedRev]
  | cons y ys ih =>
    have hy := List.pairwise_cons.1 h
    unfold insRev; split
    · next hc =>
      have hc : sort2Bigger lex y x = false := by simpa using hc
      refine List.pairwise_cons.2 ⟨?_, ih hy.2⟩
      intro z hz
      have hz := (insRev_perm lex x ys).mem_iff.1 hz
      cases hz with
      | head =>
        cases hb : sortBigger y.word x.word with
        | false => rfl
        | true => rw [sort2_of_bigger hb] at hc; cases hc
      | tail _ hz => exact hy.1 z hz
    · next hc =>
      have hc : sort2Bigger lex y x = true := by simpa using hc
      have hxy : sortBigger x.word y.word = false := by
        cases hb : sortBigger x.word y.word with
        | false => rfl
        | true => rw [not_sort2_of_bigger hb] at hc; cases hc
      refine List.pairwise_cons.2 ⟨?_, h⟩
      intro z hz
      cases hz with
      | head => exact hxy
      | tail _ hz => exact notBigger_trans (hy.1 z hz) hxy

theorem fold_ins (lex : Term → Term → Nat) (cl acc : List SLit) (h : SortedRev acc) :
    SortedRev (cl.foldl (fun acc x => insRev lex x acc) acc) ∧
    (cl.foldl (fun acc x => insRev lex x acc) acc).Perm (cl ++ acc) := by
  induction cl generalizing acc with
  | nil => exact ⟨h, List.Perm.refl _⟩
  | cons x cl ih =>
    have := ih (insRev lex x acc) (insRev_sorted lex x acc h)
    refine ⟨this.1, this.2.trans ?_⟩
    exact ((insRev_perm lex x acc).append_left cl).trans List.perm_middle

/-- descending: no literal is bigger than an earlier one -/
def Desc (l : List SLit) : Prop := l.Pairwise (fun a b => sortBigger b.word a.word = false)

theorem sortCl_spec (lex : Term → Term → Nat) (cl : List SLit) :
    Desc (sortCl lex cl) ∧ (sortCl lex cl).Perm cl := by
  unfold sortCl
  split
  · next h =>
    refine ⟨?_, List.Perm.refl _⟩
    match cl, h with
    | [], _ => exact List.Pairwise.nil
    | [x], _ => simp [Desc]
  · have := fold_ins lex cl [] List.Pairwise.nil
    rw [List.append_nil] at this
    exact ⟨List.pairwise_reverse.2 this.1, (List.reverse_perm _).trans this.2⟩

/-! ### Subsumption: soundness of the search -/

/-- how a literal of the general clause may be mapped to one of the specific clause -/
def SRel (ans : Bool) (θ : Nat → Term) (a b : SLit) : Prop :=
  negPol a.word b.word = false ∧
    ((ans && isAns a.atom && (ans && isAns b.atom)) = true ∨ subst θ a.atom = b.atom)

/-- `used` with one more index -/
abbrev mark (i : Nat) (U : Nat → Bool) : Nat → Bool := fun j => j == i || U j

/-- the literals can be mapped to different unused positions -/
def Emb (ans : Bool) (θ : Nat → Term) (sl : List SLit) : List SLit → (Nat → Bool) → Prop
  | [], _ => True
  | a :: gl, U => ∃ i b, sl[i]? = some b ∧ U i = false ∧ SRel ans θ a b ∧
      Emb ans θ sl gl (mark i U)

theorem Agrees.mono {θ : Nat → Term} {st st' : St} (h : St.Ext st st') (ha : Agrees θ st') :
    Agrees θ st := fun v t hb => ha v t (h.mono hb)

theorem matchT_agrees {x y : Term} {st s : St} (h : matchT st x y = .ok s) {θ : Nat → Term}
    (ha : Agrees θ s) : subst θ x = y := by
  obtain ⟨h1, h2, _⟩ := matchT_sound x st y s h
  rw [← h2]
  apply subst_congr
  intro v hv
  obtain ⟨t, ht⟩ := Option.ne_none_iff_exists'.1 (h1 v hv)
  rw [ha v t ht]; simp [St.val, ht]

/-- the loop, with what is known about the recursive call -/
theorem tryLits_spec {ans : Bool} {l1 : SLit} {last : Bool}
    {k : (Nat → Bool) → St → Option (Bool × St)} {full : List SLit}
    {K : (Nat → Term) → (Nat → Bool) → Prop}
    (hk1 : ∀ U st st', k U st = some (true, st') →
      St.Ext st st' ∧ ∀ θ, Agrees θ st' → K θ U)
    (hk0 : ∀ U st st', k U st = some (false, st') → st' = st) :
    ∀ (rest : List SLit) (i2 : Nat) (U : Nat → Bool) (st : St), rest = full.drop i2 →
    (∀ st', tryLits ans l1 last k rest i2 U st = some (true, st') →
      St.Ext st st' ∧ ∃ i b, full[i]? = some b ∧ U i = false ∧
        ∀ θ, Agrees θ st' → SRel ans θ l1 b ∧ (last = true ∨ K θ (mark i U))) ∧
    (∀ st', tryLits ans l1 last k rest i2 U st = some (false, st') → st' = st) := by
  intro rest
  induction rest with
  | nil =>
    intro i2 U st _
    simp only [tryLits]
    exact ⟨by simp, by intro st' h; cases h; rfl⟩
  | cons l2 rest ih =>
    intro i2 U st hd
    have hd' : rest = full.drop (i2 + 1) := by
      have : (full.drop i2).tail = rest := by rw [← hd]; rfl
      rw [← this, List.tail_drop]
    have hget : full[i2]? = some l2 := by
      have : (full.drop i2)[0]? = some l2 := by rw [← hd]; rfl
      rw [List.getElem?_drop] at this; simpa using this
    have IH := ih (i2 + 1) U st hd'
    unfold tryLits
    split
    · exact IH
    · next hu =>
      have hu : U i2 = false := by simpa using hu
      dsimp only
      split
      · exact ⟨by simp, by intro st' h; cases h; rfl⟩
      · split
        · next hc =>
          rw [Bool.and_eq_true] at hc
          have hnp : negPol l1.word l2.word = false := by simpa using hc.1
          -- the result of matching
          have hm : ∀ r : MRes, (if (ans && isAns l1.atom && (ans && isAns l2.atom)) = true
              then MRes.ok st else matchT st l1.atom l2.atom) = r →
              (∀ s, r.st? = some s → St.Ext st s) ∧
              (∀ s, r = .ok s → ∀ θ, Agrees θ s → SRel ans θ l1 l2) := by
            intro r hr
            split at hr
            · next ha =>
              subst hr
              refine ⟨?_, ?_⟩
              · intro s hs; cases hs; exact St.Ext.refl _
              · intro s _ θ _; exact ⟨hnp, Or.inl ha⟩
            · subst hr
              refine ⟨fun s hs => matchT_ext _ _ _ s hs, ?_⟩
              intro s hs θ hθ
              exact ⟨hnp, Or.inr (matchT_agrees hs hθ)⟩
          generalize hr : (if (ans && isAns l1.atom && (ans && isAns l2.atom)) = true
              then MRes.ok st else matchT st l1.atom l2.atom) = r
          obtain ⟨hext, hrel⟩ := hm r hr
          cases r with
          | ub => simp
          | fail s =>
            dsimp only
            rw [(hext s rfl).clearTo]
            exact IH
          | ok s =>
            have he := hext s rfl
            have hs := hrel s rfl
            dsimp only
            split
            · next hl =>
              refine ⟨?_, by simp⟩
              intro st' h
              cases h
              exact ⟨he, i2, l2, hget, hu, fun θ hθ => ⟨hs θ hθ, Or.inl hl⟩⟩
            · next hl =>
              cases hkr : k (fun i => i == i2 || U i) s with
              | none => simp
              | some p =>
                obtain ⟨r, s2⟩ := p
                cases r with
                | true =>
                  dsimp only
                  refine ⟨?_, by simp⟩
                  intro st' h
                  cases h
                  obtain ⟨e2, hK⟩ := hk1 _ _ _ hkr
                  exact ⟨he.trans e2, i2, l2, hget, hu, fun θ hθ =>
                    ⟨hs θ (Agrees.mono e2 hθ), Or.inr (hK θ hθ)⟩⟩
                | false =>
                  have e2 := hk0 _ _ _ hkr
                  subst e2
                  dsimp only
                  rw [he.clearTo]
                  split
                  · exact ⟨by simp, by intro st' h; cases h; rfl⟩
                  · exact IH
        · exact IH

theorem subsAux_spec (ans : Bool) (sl : List SLit) : ∀ (gl : List SLit) (U : Nat → Bool) (st : St),
    (∀ st', subsAux ans sl gl U st = some (true, st') →
      St.Ext st st' ∧ ∀ θ, Agrees θ st' → Emb ans θ sl gl U) ∧
    (∀ st', subsAux ans sl gl U st = some (false, st') → st' = st)
  | [], U, st => by
    unfold subsAux
    exact ⟨by simp, by intro st' h; cases h; rfl⟩
  | l1 :: gl, U, st => by
    unfold subsAux
    have ih := subsAux_spec ans sl gl
    have := tryLits_spec (ans := ans) (l1 := l1) (last := gl.isEmpty) (full := sl)
      (k := subsAux ans sl gl) (K := fun θ U => Emb ans θ sl gl U)
      (fun U st st' h => (ih U st).1 st' h) (fun U st st' h => (ih U st).2 st' h)
      sl 0 U st (by simp)
    refine ⟨?_, this.2⟩
    intro st' h
    obtain ⟨e, i, b, hb, hu, hall⟩ := this.1 st' h
    refine ⟨e, fun θ hθ => ⟨i, b, hb, hu, (hall θ hθ).1, ?_⟩⟩
    rcases (hall θ hθ).2 with hl | hK
    · rw [List.isEmpty_iff] at hl; subst hl; trivial
    · exact hK

/-! ### Subsumption: completeness of the search -/

theorem Ext_same {st st' : St} (h : St.Ext st st') (hl : st.trail.length = st'.trail.length) :
    st' = st := by
  have := h.clearTo
  rw [hl] at this
  rw [← this]
  cases st' with
  | mk b tr =>
    simp only [St.clearTo, Nat.sub_self, List.take_zero, List.drop_zero, St.mk.injEq, and_true]
    funext w; simp [St.unset]

theorem mark_comm (i j : Nat) (U : Nat → Bool) : mark i (mark j U) = mark j (mark i U) := by
  funext x; simp only [mark]; cases x == i <;> cases x == j <;> simp

theorem mark_ne {i j : Nat} {U : Nat → Bool} (h : U j = false) (hij : j ≠ i) :
    mark i U j = false := by simp [mark, h, hij]

/-- two interchangeable positions may be exchanged -/
theorem Emb.swap {ans : Bool} {θ : Nat → Term} {sl : List SLit} {i j : Nat} {b c : SLit}
    (hi : sl[i]? = some b) (hj : sl[j]? = some c)
    : ∀ (gl : List SLit) (U : Nat → Bool),
    (hrel : ∀ a ∈ gl, SRel ans θ a b → SRel ans θ a c) →
    U i = false → U j = false → Emb ans θ sl gl (mark j U) → Emb ans θ sl gl (mark i U)
  | [], _, _, _, _, _ => trivial
  | a :: gl, U, hrel, h1, h2, ⟨k, d, hk, hu, hr, he⟩ => by
    by_cases hij : i = j
    · subst hij; exact ⟨k, d, hk, hu, hr, he⟩
    have hukj : k ≠ j := by intro e; subst e; simp [mark] at hu
    have hU : U k = false := by simp [mark] at hu; exact hu.2
    have hrel' : ∀ a ∈ gl, SRel ans θ a b → SRel ans θ a c :=
      fun a ha => hrel a (List.mem_cons_of_mem _ ha)
    by_cases hki : k = i
    · subst hki
      rw [hi] at hk; cases hk
      refine ⟨j, c, hj, mark_ne h2 (fun e => hij e.symm), hrel a List.mem_cons_self hr, ?_⟩
      rw [mark_comm]; exact he
    · refine ⟨k, d, hk, mark_ne hU hki, hr, ?_⟩
      rw [mark_comm] at he ⊢
      exact Emb.swap hi hj gl (mark k U) hrel' (mark_ne h1 (fun e => hki e.symm))
        (mark_ne h2 (fun e => hukj e.symm)) he

theorem tryLits_complete {ans : Bool} {l1 : SLit} {last : Bool}
    {k : (Nat → Bool) → St → Option (Bool × St)} {full : List SLit} {θ : Nat → Term}
    {K : (Nat → Bool) → Prop}
    (hk0 : ∀ U st st', k U st = some (false, st') → st' = st)
    (hkc : last = false → ∀ U st, Agrees θ st → K U → ∀ st', k U st ≠ some (false, st'))
    {i : Nat} {b : SLit} (hb : full[i]? = some b) (hrel : SRel ans θ l1 b)
    (hpass : subst θ l1.atom = b.atom → sortBigger l1.word b.word = false ∧
      matchable l1.word b.word = true)
    (hsort : ∀ j c, j ≤ i → full[j]? = some c → sortBigger l1.word c.word = true →
      sortBigger l1.word b.word = true)
    (U : Nat → Bool) (hU : U i = false) (hK : last = false → K (mark i U))
    (hswap : ∀ j c, full[j]? = some c → U j = false → SRel ans θ l1 c →
      K (mark i U) → K (mark j U)) :
    ∀ (rest : List SLit) (i2 : Nat) (st : St), rest = full.drop i2 → i2 ≤ i → Agrees θ st →
    ∀ st', tryLits ans l1 last k rest i2 U st ≠ some (false, st') := by
  intro rest
  induction rest with
  | nil =>
    intro i2 st hd hle _ st' _
    have : full[i]? = (full.drop i2)[i - i2]? := by
      rw [List.getElem?_drop]; congr 1; omega
    rw [this, ← hd] at hb; simp at hb
  | cons l2 rest ih =>
    intro i2 st hd hle hag st'
    have hd' : rest = full.drop (i2 + 1) := by
      have : (full.drop i2).tail = rest := by rw [← hd]; rfl
      rw [← this, List.tail_drop]
    have hget : full[i2]? = some l2 := by
      have : (full.drop i2)[0]? = some l2 := by rw [← hd]; rfl
      rw [List.getElem?_drop] at this; simpa using this
    have IH : i2 ≠ i → ∀ st', tryLits ans l1 last k rest (i2 + 1) U st ≠ some (false, st') :=
      fun hne => ih (i2 + 1) st hd' (by omega) hag
    unfold tryLits
    split
    · next hu => exact IH (by intro e; subst e; rw [hU] at hu; cases hu) st'
    · next hu =>
      have hu : U i2 = false := by simpa using hu
      dsimp only
      split
      · -- early exit
        next hx =>
        exfalso
        simp only [Bool.and_eq_true, Bool.not_eq_true'] at hx
        obtain ⟨⟨hx1, hx2⟩, hx3⟩ := hx
        rcases hrel.2 with ha | hsub
        · rw [Bool.and_eq_true] at ha; rw [ha.1] at hx2; cases hx2
        · have := hsort i2 l2 hle hget hx1
          rw [(hpass hsub).1] at this; cases this
      · split
        · next hc =>
          rw [Bool.and_eq_true] at hc
          have hnp : negPol l1.word l2.word = false := by simpa using hc.1
          generalize hr : (if (ans && isAns l1.atom && (ans && isAns l2.atom)) = true
              then MRes.ok st else matchT st l1.atom l2.atom) = r
          cases r with
          | ub => simp
          | fail s =>
            dsimp only
            have hm : matchT st l1.atom l2.atom = .fail s := by
              split at hr
              · cases hr
              · exact hr
            have hna : ¬ (ans && isAns l1.atom && (ans && isAns l2.atom)) = true := by
              split at hr
              · cases hr
              · assumption
            rw [(matchT_ext st _ _ s (by rw [hm]; rfl)).clearTo]
            apply IH
            intro e
            subst e
            rw [hget] at hb; cases hb
            rcases hrel.2 with ha | hsub
            · exact hna ha
            · obtain ⟨s', hs', _⟩ := matchT_complete l1.atom st θ hag
              rw [hsub, hm] at hs'; cases hs'
          | ok s =>
            dsimp only
            have hext : St.Ext st s := by
              split at hr
              · cases hr; exact St.Ext.refl _
              · exact matchT_ext st _ _ s (by rw [hr]; rfl)
            have hsrel : Agrees θ s → SRel ans θ l1 l2 := by
              intro hθ
              split at hr
              · next ha => exact ⟨hnp, Or.inl ha⟩
              · exact ⟨hnp, Or.inr (matchT_agrees hr hθ)⟩
            have hhere : i2 = i → Agrees θ s := by
              intro e
              subst e
              rw [hget] at hb; cases hb
              split at hr
              · cases hr; exact hag
              · next hna =>
                rcases hrel.2 with ha | hsub
                · exact absurd ha hna
                · obtain ⟨s', hs', h2⟩ := matchT_complete l1.atom st θ hag
                  rw [hsub, hr] at hs'; cases hs'; exact h2
            split
            · simp
            · next hl =>
              have hl : last = false := by simpa using hl
              cases hkr : k (fun j => j == i2 || U j) s with
              | none => simp
              | some p =>
                obtain ⟨r, s2⟩ := p
                cases r with
                | true => simp
                | false =>
                  have e2 := hk0 _ _ _ hkr
                  subst e2
                  dsimp only
                  rw [hext.clearTo]
                  have hno : Agrees θ s2 → False := by
                    intro hθ
                    refine hkc hl _ _ hθ ?_ _ hkr
                    exact hswap i2 l2 hget hu (hsrel hθ) (hK hl)
                  split
                  · next hv =>
                    exfalso
                    have := Ext_same hext (by simpa using hv)
                    subst this
                    exact hno hag
                  · exact IH (fun e => hno (hhere e)) st'
        · next hc =>
          apply IH
          intro e
          subst e
          rw [hget] at hb; cases hb
          apply hc
          rw [hrel.1]
          rcases hrel.2 with ha | hsub
          · rw [ha]; rfl
          · rw [(hpass hsub).2]; simp

/-- what the general and the specific clause have to satisfy for completeness -/
structure Good (sl gl : List SLit) : Prop where
  desc : Desc sl
  pass : ∀ a ∈ gl, ∀ b ∈ sl, ∀ θ, negPol a.word b.word = false → subst θ a.atom = b.atom →
    sortBigger a.word b.word = false ∧ matchable a.word b.word = true
  ans : ∀ a ∈ gl, ∀ θ, isAns (subst θ a.atom) = isAns a.atom
  pol : ∀ a ∈ gl, ∀ c ∈ gl, ∀ b ∈ sl, ∀ d ∈ sl, negPol a.word b.word = false →
    negPol a.word d.word = false → negPol c.word b.word = false → negPol c.word d.word = false

theorem subsAux_complete {ans : Bool} {sl : List SLit} {θ : Nat → Term} :
    ∀ (gl : List SLit), Good sl gl → ∀ (U : Nat → Bool) (st : St), gl ≠ [] → Agrees θ st →
    Emb ans θ sl gl U → ∀ st', subsAux ans sl gl U st ≠ some (false, st')
  | [], _, _, _, h, _, _ => absurd rfl h
  | l1 :: gl, hg, U, st, _, hag, ⟨i, b, hb, hu, hrel, he⟩ => by
    intro st'
    have hbm : b ∈ sl := List.mem_of_getElem? hb
    have hg' : Good sl gl := ⟨hg.desc, fun a ha => hg.pass a (List.mem_cons_of_mem _ ha),
      fun a ha => hg.ans a (List.mem_cons_of_mem _ ha),
      fun a ha c hc => hg.pol a (List.mem_cons_of_mem _ ha) c (List.mem_cons_of_mem _ hc)⟩
    unfold subsAux
    refine tryLits_complete (θ := θ) (K := fun U => gl ≠ [] → Emb ans θ sl gl U)
      (fun U st st' h => (subsAux_spec ans sl gl U st).2 st' h) ?_ hb hrel ?_ ?_ U hu
      (fun _ _ => he) ?_ sl 0 st (by simp) (by omega) hag st'
    · intro hl U st hag hK st' hr
      have hgl : gl ≠ [] := by intro e; subst e; simp at hl
      exact subsAux_complete gl hg' U st hgl hag (hK hgl) st' hr
    · intro hsub
      exact hg.pass l1 List.mem_cons_self b hbm θ hrel.1 hsub
    · intro j c hj hc hbig
      by_cases hji : j = i
      · subst hji; rw [hc] at hb; cases hb; exact hbig
      · refine bigger_of ?_ hbig
        have := List.pairwise_iff_getElem.1 hg.desc
        obtain ⟨h1, e1⟩ := List.getElem?_eq_some_iff.1 hc
        obtain ⟨h2, e2⟩ := List.getElem?_eq_some_iff.1 hb
        have := this j i h1 h2 (by omega)
        rwa [e1, e2] at this
    · intro j c hj hUj hrj hK hgl
      refine Emb.swap hj hb gl U ?_ hUj hu (hK hgl)
      intro a ha hac
      have hcm : c ∈ sl := List.mem_of_getElem? hj
      have hpol := hg.pol l1 List.mem_cons_self a (List.mem_cons_of_mem _ ha) c hcm b hbm
        hrj.1 hrel.1 hac.1
      refine ⟨hpol, ?_⟩
      have a1 := hg.ans l1 List.mem_cons_self θ
      have a2 := hg.ans a (List.mem_cons_of_mem _ ha) θ
      by_cases h1 : (ans && isAns l1.atom) = true
      · left
        simp only [Bool.and_eq_true] at h1 ⊢
        have hc : isAns c.atom = true := by
          rcases hrj.2 with h | h
          · simp only [Bool.and_eq_true] at h; exact h.2.2
          · rw [← h, a1]; exact h1.2
        have hb' : isAns b.atom = true := by
          rcases hrel.2 with h | h
          · simp only [Bool.and_eq_true] at h; exact h.2.2
          · rw [← h, a1]; exact h1.2
        have ha' : isAns a.atom = true := by
          rcases hac.2 with h | h
          · simp only [Bool.and_eq_true] at h; exact h.1.2
          · rw [← a2, h]; exact hc
        exact ⟨⟨h1.1, ha'⟩, h1.1, hb'⟩
      · have e1 : subst θ l1.atom = c.atom := by
          rcases hrj.2 with h | h
          · rw [Bool.and_eq_true] at h; exact absurd h.1 h1
          · exact h
        have e2 : subst θ l1.atom = b.atom := by
          rcases hrel.2 with h | h
          · rw [Bool.and_eq_true] at h; exact absurd h.1 h1
          · exact h
        rw [← e2, e1]
        exact hac.2

end Gkc
