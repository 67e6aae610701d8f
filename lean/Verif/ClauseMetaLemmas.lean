import Verif.SubsumeLemmas
import Mathlib.Data.List.Perm.Subperm
/-
Closed forms of the clause summaries, and their behaviour under instances and added literals.
-/
namespace Gkc
open Term

/-- prefix hash bit for the second symbol, if there are two -/
def p2 (h : Const → Int) : List Const → Option Int
  | c0 :: c1 :: _ => some (h c0 + h c1)
  | _ => none
/-- prefix hash bit for the third symbol, if there are three -/
def p3 (h : Const → Int) : List Const → Option Int
  | c0 :: c1 :: c2 :: _ => some (h c0 + h c1 + h c2)
  | _ => none
/-- prefix hash bit for the first symbol, if there is one -/
def p1 (h : Const → Int) : List Const → Option Int
  | c0 :: _ => some (h c0)
  | _ => none

theorem leaf_some {h : Const → Int} {m : TMeta} {c : Const} (hv : m.hasvars = false)
    (hc : 1 ≤ h c) (h0 : 0 ≤ m.prefhash) (h1 : m.prefhash + h c < 2 ^ 31) :
    m.leaf h (some c) = { m with
      size := m.size + 1, prefhash := m.prefhash + h c, preflen := m.preflen + 1
      pref1 := if m.preflen = 0 then m.prefhash + h c else m.pref1
      pref2 := if m.preflen = 1 then m.prefhash + h c else m.pref2
      pref3 := if m.preflen = 2 then m.prefhash + h c else m.pref3 } := by
  have e : toI32 (m.prefhash + h c) = m.prefhash + h c := toI32_small (by omega) h1
  have e' : (if m.prefhash + h c < 0 then 0 - (m.prefhash + h c) else m.prefhash + h c) =
      m.prefhash + h c := if_neg (by omega)
  unfold TMeta.leaf
  simp only [hv, e', e]
  rw [if_neg (by simp)]
  obtain ⟨_, _, _, k, _⟩ := m
  match k with
  | 0 => simp
  | 1 => simp
  | 2 => simp
  | k + 3 => simp

theorem leaf_late {h : Const → Int} {m : TMeta} {c : Const} (hp : 3 ≤ m.preflen) :
    (m.leaf h (some c)).pref1 = m.pref1 ∧ (m.leaf h (some c)).pref2 = m.pref2 ∧
    (m.leaf h (some c)).pref3 = m.pref3 ∧ 3 ≤ (m.leaf h (some c)).preflen := by
  unfold TMeta.leaf
  simp only
  split
  · exact ⟨rfl, rfl, rfl, hp⟩
  · rw [if_neg (by simp; omega), if_neg (by simp; omega), if_neg (by simp; omega)]
    exact ⟨rfl, rfl, rfl, by simp; omega⟩

theorem consts_late {h : Const → Int} : ∀ (cs : List Const) (m : TMeta), 3 ≤ m.preflen →
    (consts h m cs).pref1 = m.pref1 ∧ (consts h m cs).pref2 = m.pref2 ∧
    (consts h m cs).pref3 = m.pref3
  | [], m, _ => ⟨rfl, rfl, rfl⟩
  | c :: cs, m, hp => by
    rw [consts_cons]
    have h1 := leaf_late (h := h) (c := c) hp
    have h2 := consts_late (h := h) cs _ h1.2.2.2
    rw [h2.1, h2.2.1, h2.2.2]
    exact ⟨h1.1, h1.2.1, h1.2.2.1⟩

theorem consts_prefs {h : Const → Int} (hh : HashOk h) (cs : List Const) (m : TMeta)
    (hv : m.hasvars = false) (hp : m.prefhash = 0) (hl : m.preflen = 0) :
    (consts h m cs).pref1 = (p1 h cs).getD m.pref1 ∧
    (consts h m cs).pref2 = (p2 h cs).getD m.pref2 ∧
    (consts h m cs).pref3 = (p3 h cs).getD m.pref3 := by
  match cs with
  | [] => exact ⟨rfl, rfl, rfl⟩
  | [a] =>
    have ha := hh a
    rw [consts_cons, leaf_some hv ha.1 (by omega) (by omega)]
    simp [consts, hl, hp, p1, p2, p3]
  | [a, b] =>
    have ha := hh a; have hb := hh b
    rw [consts_cons, leaf_some hv ha.1 (by omega) (by omega), consts_cons,
      leaf_some (by exact hv) hb.1 (by simp; omega) (by simp; omega)]
    simp [consts, hl, hp, p1, p2, p3]
  | a :: b :: c :: cs =>
    have ha := hh a; have hb := hh b; have hc := hh c
    rw [consts_cons, leaf_some hv ha.1 (by omega) (by omega), consts_cons,
      leaf_some (by exact hv) hb.1 (by simp; omega) (by simp; omega), consts_cons,
      leaf_some (by exact hv) hc.1 (by simp; omega) (by simp; omega)]
    have := consts_late (h := h) cs { m with
      size := m.size + 1 + 1 + 1, prefhash := m.prefhash + h a + h b + h c,
      preflen := m.preflen + 1 + 1 + 1
      pref1 := h a, pref2 := h a + h b, pref3 := h a + h b + h c } (by simp)
    simp only [hl, hp] at this ⊢
    simp [p1, p2, p3] at this ⊢
    exact this

/-- number of literals satisfying a test -/
abbrev cnt (p : Lit → Bool) (ls : List Lit) : Nat := ls.countP p
/-- is the literal ground? -/
def Lit.gr (l : Lit) : Bool := allc (syms l.atom)
/-- total number of symbols -/
def litSize : List Lit → Nat
  | [] => 0
  | l :: ls => size l.atom + litSize ls
/-- largest value of a measure -/
def mx (f : Lit → Nat) : List Lit → Nat
  | [] => 0
  | l :: ls => max (f l) (mx f ls)

/-- the bits of bits1 -/
def B1 (h : Const → Int) (l : Lit) (k : Nat) : Prop :=
  ∃ x, p1 h (pre l.atom) = some x ∧ (signedBit x l.neg).testBit k = true
/-- the bits of bits2 -/
def B2 (h : Const → Int) (l : Lit) (k : Nat) : Prop :=
  ∃ x, p2 h (pre l.atom) = some x ∧ (hashBit x).testBit k = true
/-- the bits of bits3 -/
def B3 (h : Const → Int) (l : Lit) (k : Nat) : Prop :=
  ∃ x, p3 h (pre l.atom) = some x ∧ (hashBit x).testBit k = true

/-- what the clause summary contains -/
structure MetaIs (h : Const → Int) (ls : List Lit) (c r : CMeta) : Prop where
  length : r.length = c.length
  neglength : r.neglength = c.neglength + cnt Lit.neg ls
  groundlength : r.groundlength = c.groundlength + cnt Lit.gr ls
  hasvars : r.hasvars = (c.hasvars || ls.any (fun l => !l.gr))
  size : r.size = c.size + litSize ls
  depth : r.depth = max c.depth (mx (fun l => dep l.atom) ls)
  preflen : r.preflen = max c.preflen (mx (fun l => (pre l.atom).length) ls)
  bits1 : ∀ k, r.bits1.testBit k = true ↔ (c.bits1.testBit k = true ∨ ∃ l ∈ ls, B1 h l k)
  bits2 : ∀ k, r.bits2.testBit k = true ↔ (c.bits2.testBit k = true ∨ ∃ l ∈ ls, B2 h l k)
  bits3 : ∀ k, r.bits3.testBit k = true ↔ (c.bits3.testBit k = true ∨ ∃ l ∈ ls, B3 h l k)

theorem testBit_or_iff (a b k : Nat) :
    (a ||| b).testBit k = true ↔ (a.testBit k = true ∨ b.testBit k = true) := by
  rw [Nat.testBit_or, Bool.or_eq_true]

theorem p1_pos {h : Const → Int} (hh : HashOk h) {cs x} (e : p1 h cs = some x) : x ≠ 0 := by
  match cs with
  | [] => cases e
  | a :: _ => have := hh a; simp [p1] at e; omega
theorem p2_pos {h : Const → Int} (hh : HashOk h) {cs x} (e : p2 h cs = some x) : x ≠ 0 := by
  match cs with
  | [] => cases e
  | [a] => cases e
  | a :: b :: _ => have := hh a; have := hh b; simp [p2] at e; omega
theorem p3_pos {h : Const → Int} (hh : HashOk h) {cs x} (e : p3 h cs = some x) : x ≠ 0 := by
  match cs with
  | [] => cases e
  | [a] => cases e
  | [a, b] => cases e
  | a :: b :: c :: _ => have := hh a; have := hh b; have := hh c; simp [p3] at e; omega

/-- One step for the `k`-th bit of a bit mask: `m` is the stale value of the hash, whose bit is
already in the mask. -/
theorem bit_step {f : Int → Nat} {o : Option Int} (ho : ∀ x, o = some x → x ≠ 0) {m : Int}
    {c k : Nat} (hm : m ≠ 0 → ∃ x, (f m).testBit k = true → c.testBit x = true ∧ x = k) :
    (if o.getD m != 0 then c ||| f (o.getD m) else c).testBit k = true ↔
      (c.testBit k = true ∨ ∃ x, o = some x ∧ (f x).testBit k = true) := by
  cases o with
  | none =>
    simp only [Option.getD_none, reduceCtorEq, false_and, exists_false, or_false]
    split
    · next hne =>
      rw [testBit_or_iff]
      obtain ⟨x, hx⟩ := hm (by simpa using hne)
      constructor
      · rintro (h | h)
        · exact h
        · obtain ⟨h1, rfl⟩ := hx h; exact h1
      · exact Or.inl
    · exact Iff.rfl
  | some x =>
    have := ho x rfl
    simp only [Option.getD_some, Option.some.injEq]
    rw [if_pos (by simpa using this), testBit_or_iff]
    simp

/-- stale hashes are accounted for already.  `s` is a sign for the first hash: when the first
hash of a literal is stale the sign may be another one, so it must never be stale. -/
structure Stale (m : TMeta) (c : CMeta) : Prop where
  s2 : m.pref2 ≠ 0 → ∀ k, (hashBit m.pref2).testBit k = true → c.bits2.testBit k = true
  s3 : m.pref3 ≠ 0 → ∀ k, (hashBit m.pref3).testBit k = true → c.bits3.testBit k = true

theorem pre_app (f : Const) (as : List Term) : ∃ cs, pre (.app f as) = f :: cs :=
  ⟨tw (symsL as), by simp [pre, syms, tw]⟩

theorem clMetaLoop_is {h : Const → Int} (hh : HashOk h) : ∀ (ls : List Lit),
    (∀ l ∈ ls, ∃ p as, l.atom = .app p as) → ∀ (m : TMeta) (c : CMeta), m.hasvars = false →
    m.prefhash = 0 → m.preflen = 0 → m.size = 0 → m.depth = 0 → Stale m c →
    MetaIs h ls c (clMetaLoop h m c ls)
  | [], _, m, c, _, _, _, _, _, _ => by
    unfold clMetaLoop
    exact ⟨rfl, rfl, rfl, by simp, rfl, by simp [mx], by simp [mx], by simp, by simp, by simp⟩
  | l :: ls, hl, m, c, hv, hp, hpl, hs, hd, hst => by
    unfold clMetaLoop
    obtain ⟨p, as, hat⟩ := hl l List.mem_cons_self
    obtain ⟨cs, hcs⟩ := pre_app p as
    rw [← hat] at hcs
    have q := consts_prefs hh (pre l.atom) { m with depth := 0 } hv hp hpl
    have e1 : (calcT h 0 m l.atom).pref1 = (p1 h (pre l.atom)).getD m.pref1 := by
      rw [calc_pref1 h _ _ hv]; exact q.1
    have e2 : (calcT h 0 m l.atom).pref2 = (p2 h (pre l.atom)).getD m.pref2 := by
      rw [calc_pref2 h _ _ hv]; exact q.2.1
    have e3 : (calcT h 0 m l.atom).pref3 = (p3 h (pre l.atom)).getD m.pref3 := by
      rw [calc_pref3 h _ _ hv]; exact q.2.2
    have es := calc_size h l.atom m hv
    have eh := calc_hasvars h l.atom m hv
    have el := calc_preflen h l.atom m hv
    have ed := calc_depth0 h l.atom m hd
    rw [hs, Nat.zero_add] at es
    rw [hpl, Nat.zero_add] at el
    generalize calcT h 0 m l.atom = m' at *
    have b1 : ∀ k, (c.add l.neg m').bits1.testBit k = true ↔
        (c.bits1.testBit k = true ∨ B1 h l k) := by
      intro k
      have hx : p1 h (pre l.atom) = some (h p) := by rw [hcs]; rfl
      have := p1_pos hh hx
      simp only [CMeta.add, e1, hx, Option.getD_some]
      rw [if_pos (by simpa using this), testBit_or_iff]
      simp [B1, hx]
    have b2 : ∀ k, (c.add l.neg m').bits2.testBit k = true ↔
        (c.bits2.testBit k = true ∨ B2 h l k) := by
      intro k
      simp only [CMeta.add, e2]
      exact bit_step (fun x => p2_pos hh) (fun hne => ⟨k, fun hk => ⟨hst.s2 hne k hk, rfl⟩⟩)
    have b3 : ∀ k, (c.add l.neg m').bits3.testBit k = true ↔
        (c.bits3.testBit k = true ∨ B3 h l k) := by
      intro k
      simp only [CMeta.add, e3]
      exact bit_step (fun x => p3_pos hh) (fun hne => ⟨k, fun hk => ⟨hst.s3 hne k hk, rfl⟩⟩)
    have hst' : Stale m'.next (c.add l.neg m') := by
      constructor
      · intro hne k hk
        have hne : m'.pref2 ≠ 0 := hne
        have hk : (hashBit m'.pref2).testBit k = true := hk
        simp only [CMeta.add]
        rw [if_pos (by simpa using hne), testBit_or_iff]
        exact Or.inr hk
      · intro hne k hk
        have hne : m'.pref3 ≠ 0 := hne
        have hk : (hashBit m'.pref3).testBit k = true := hk
        simp only [CMeta.add]
        rw [if_pos (by simpa using hne), testBit_or_iff]
        exact Or.inr hk
    have ih := clMetaLoop_is hh ls (fun l hl' => hl l (List.mem_cons_of_mem _ hl')) m'.next
      (c.add l.neg m') rfl rfl rfl rfl rfl hst'
    generalize clMetaLoop h m'.next (c.add l.neg m') ls = r at ih
    have eg : m'.hasvars = !l.gr := eh
    refine ⟨ih.length, ?_, ?_, ?_, ?_, ?_, ?_, ?_, ?_, ?_⟩
    · rw [ih.neglength]
      simp only [CMeta.add, cnt, List.countP_cons]
      cases l.neg <;> simp <;> omega
    · rw [ih.groundlength]
      simp only [CMeta.add, cnt, List.countP_cons, eg]
      cases l.gr <;> simp <;> omega
    · rw [ih.hasvars]
      simp only [CMeta.add, eg, List.any_cons]
      cases l.gr <;> simp
    · rw [ih.size]; simp only [CMeta.add, litSize, es]; omega
    · rw [ih.depth]; simp only [CMeta.add, mx, ed]; split <;> omega
    · rw [ih.preflen]
      have : m'.preflen = (pre l.atom).length := el
      simp only [CMeta.add, mx, this]; split <;> omega
    · intro k; rw [ih.bits1, b1]; simp [or_assoc]
    · intro k; rw [ih.bits2, b2]; simp [or_assoc]
    · intro k; rw [ih.bits3, b3]; simp [or_assoc]

theorem ruleMeta_is {h : Const → Int} (hh : HashOk h) (ls : List Lit)
    (hl : ∀ l ∈ ls, ∃ p as, l.atom = .app p as) :
    MetaIs h ls { length := ls.length } (clMetaLoop h {} { length := ls.length } ls) :=
  clMetaLoop_is hh ls hl _ _ rfl rfl rfl rfl rfl ⟨by simp, by simp⟩

/-! ### Monotonicity -/

theorem litSize_append (a b : List Lit) : litSize (a ++ b) = litSize a + litSize b := by
  induction a with
  | nil => simp [litSize]
  | cons x a ih => simp [litSize, ih]; omega

theorem litSize_perm {a b : List Lit} (h : a.Perm b) : litSize a = litSize b := by
  induction h with
  | nil => rfl
  | cons x _ ih => simp [litSize, ih]
  | swap x y l => simp [litSize]; omega
  | trans _ _ h1 h2 => rw [h1, h2]

theorem mx_le {f : Lit → Nat} {ls : List Lit} {n : Nat} : mx f ls ≤ n ↔ ∀ l ∈ ls, f l ≤ n := by
  induction ls with
  | nil => simp [mx]
  | cons x ls ih => simp [mx, ih, Nat.max_le]

theorem le_mx {f : Lit → Nat} {ls : List Lit} {l : Lit} (h : l ∈ ls) : f l ≤ mx f ls :=
  mx_le.1 (Nat.le_refl _) l h

theorem limitByte_lt (n : Nat) : limitByte n < 256 := by unfold limitByte; split; omega; split <;> omega

theorem limitByte_mono {a b : Nat} (h : a ≤ b) (hb : b ≠ 255) : limitByte a ≤ limitByte b := by
  unfold limitByte; split <;> split <;> (try split) <;> (try split) <;> omega

theorem or_shift {a b k : Nat} (h : b < 2 ^ k) : (a <<< k) ||| b = a * 2 ^ k + b := by
  rw [Nat.shiftLeft_eq, Nat.mul_comm, Nat.two_pow_add_eq_or_of_lt h]

theorem pack4 {a b c d : Nat} (hb : b < 256) (hc : c < 256) (hd : d < 256) :
    ((a <<< 24 ||| b <<< 16) ||| c <<< 8) ||| d <<< 0 = a * 2 ^ 24 + b * 2 ^ 16 + c * 2 ^ 8 + d := by
  have e1 : c <<< 8 ||| d <<< 0 = c * 2 ^ 8 + d := by
    rw [Nat.shiftLeft_zero]; exact or_shift hd
  have e2 : b <<< 16 ||| (c * 2 ^ 8 + d) = b * 2 ^ 16 + (c * 2 ^ 8 + d) := or_shift (by omega)
  have e3 : a <<< 24 ||| (b * 2 ^ 16 + (c * 2 ^ 8 + d)) = a * 2 ^ 24 + (b * 2 ^ 16 + (c * 2 ^ 8 + d)) :=
    or_shift (by omega)
  rw [Nat.or_assoc, Nat.or_assoc, e1, e2, e3]; omega

theorem mask_at {x : Nat} (s : Nat) : x &&& (255 * 2 ^ s) = x / 2 ^ s % 256 * 2 ^ s :=
  and_mask x 8 s

theorem and_sub {a b : Nat} (h : ∀ k, a.testBit k = true → b.testBit k = true) : a &&& b = a := by
  apply Nat.eq_of_testBit_eq
  intro k
  rw [Nat.testBit_and]
  cases ha : a.testBit k with
  | false => rfl
  | true => simp [h k ha]

end Gkc
