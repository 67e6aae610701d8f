import Verif.CompareLemmas
/-
C52: values are compared as the numbers and strings they stand for, and the comparison is a total
preorder.
-/
namespace Gkc.Props.Cmp
open Gkc.Compare

/-! ### What less and equal mean -/

/-- The number a double stands for, times 2^1074 (sign, exponent and fraction; infinity counts as
2^1024). -/
def dblNum (b : BitVec 64) : Int :=
  let e := (b.extractLsb' 52 11).toNat
  let m := (b.extractLsb' 0 52).toNat
  let n : Nat := if e = 0 then m else (2 ^ 52 + m) * 2 ^ (e - 1)
  if b.getLsbD 63 then - (n : Int) else (n : Int)

/-- one string of bytes comes before the other in a dictionary -/
def LexLt (s t : List Byte) : Prop :=
  ∃ p s' t', s = p ++ s' ∧ t = p ++ t' ∧
    ((s' = [] ∧ t' ≠ []) ∨ ∃ c d u v, s' = c :: u ∧ t' = d :: v ∧ c.toNat < d.toNat)

/-- the characters before the first zero -/
def cstr (s : List Byte) : List Byte := s.takeWhile (· != 0)

/-- the language, type or prefix; there may be none -/
def extStr : Option (List Byte) → List Byte
  | none => []
  | some e => cstr e

/-- fields one by one -/
def Pointwise (R : Word → Word → Prop) (xs ys : List Word) : Prop :=
  xs.length = ys.length ∧ ∀ (i : Nat) (x y : Word), xs[i]? = some x → ys[i]? = some y → R x y

/-- values that are not told apart -/
def SameVal (db : Db) (sub : Option (Word → Word → Prop)) : Val → Val → Prop
  | .int i, .int j => i = j
  | .dbl x, .dbl y => dblNum x = dblNum y
  | .str s _, .str t _ => cstr s = cstr t
  | .xml s e, .xml t f => extStr e = extStr f ∧ cstr s = cstr t
  | .uri s e, .uri t f => extStr e = extStr f ∧ cstr s = cstr t
  | .blob s, .blob t => s = t
  | .record p, .record q => match sub with
    | none => False
    | some R => ∃ xs ys, db.fields p = some xs ∧ db.fields q = some ys ∧ Pointwise R xs ys
  | _, _ => False

/-- Words that stand for the same value; records are looked into to the given depth. -/
def Same (db : Db) : Nat → Word → Word → Prop
  | 0, a, b => a = b ∨ ∃ v w, db.val a = some v ∧ db.val b = some w ∧ SameVal db none v w
  | d + 1, a, b => a = b ∨ ∃ v w, db.val a = some v ∧ db.val b = some w ∧ SameVal db (some (Same db d)) v w

/-- the first fields that differ decide -/
def FirstLess (S L : Word → Word → Prop) (xs ys : List Word) : Prop :=
  ∃ i : Nat, (∀ (j : Nat) (x y : Word), j < i → xs[j]? = some x → ys[j]? = some y → S x y) ∧
    ∃ x y, xs[i]? = some x ∧ ys[i]? = some y ∧ L x y

/-- one value of a type is less than another of the type -/
def LessVal (db : Db) (sub : Option ((Word → Word → Prop) × (Word → Word → Prop))) (a b : Word) : Val → Val → Prop
  | .int i, .int j => i < j
  | .dbl x, .dbl y => dblNum x < dblNum y
  | .str s _, .str t _ => LexLt (cstr s) (cstr t)
  | .xml s e, .xml t f => LexLt (extStr e) (extStr f) ∨ (extStr e = extStr f ∧ LexLt (cstr s) (cstr t))
  | .uri s e, .uri t f => LexLt (extStr e) (extStr f) ∨ (extStr e = extStr f ∧ LexLt (cstr s) (cstr t))
  | .blob s, .blob t => LexLt s t
  | .char c, .char d => c.toNat < d.toNat
  | .fix m, .fix n => m < n
  | .date m, .date n => m < n
  | .time m, .time n => m < n
  | .var m, .var n => m < n
  | .anon, .anon => a < b
  | .record p, .record q => match sub with
    | none => p < q
    | some (S, L) => ∃ xs ys, db.fields p = some xs ∧ db.fields q = some ys ∧
        (xs.length < ys.length ∨ (xs.length = ys.length ∧ FirstLess S L xs ys))
  | _, _ => False

/-- Types come in the order of their codes, then values of one type; records are looked into to the
given depth. -/
def Less (db : Db) : Nat → Word → Word → Prop
  | 0, a, b => ∃ v w, db.val a = some v ∧ db.val b = some w ∧ (v.ty < w.ty ∨ LessVal db none a b v w)
  | d + 1, a, b => ∃ v w, db.val a = some v ∧ db.val b = some w ∧
      (v.ty < w.ty ∨ LessVal db (some (Same db d, Less db d)) a b v w)

/-! ### Strings and doubles -/

theorem cmpBytes_eq_iff (s t : List Byte) : cmpBytes s t = .eq ↔ s = t := by
  rw [cmpBytes_eq, Std.LawfulEqCmp.compare_eq_iff_eq]
  constructor
  · intro h
    exact (List.map_inj_right (fun x y e => BitVec.eq_of_toNat_eq e)).1 h
  · intro h; rw [h]

theorem cmpBytes_lt_iff : ∀ s t : List Byte, cmpBytes s t = .lt ↔ LexLt s t
  | [], [] => by
    constructor
    · intro h; simp [cmpBytes] at h
    · rintro ⟨p, s', t', h1, h2, h⟩
      have e1 := (List.nil_eq_append_iff.1 h1).2
      have e2 := (List.nil_eq_append_iff.1 h2).2
      rcases h with ⟨_, h⟩ | ⟨c, d, u, v, h, _⟩
      · exact absurd e2 h
      · rw [e1] at h; cases h
  | [], b :: t => by
    constructor
    · intro _
      exact ⟨[], [], b :: t, rfl, rfl, Or.inl ⟨rfl, by simp⟩⟩
    · intro _; rfl
  | a :: s, [] => by
    constructor
    · intro h; simp [cmpBytes] at h
    · rintro ⟨p, s', t', h1, h2, h⟩
      have e2 := (List.nil_eq_append_iff.1 h2).2
      rcases h with ⟨_, h⟩ | ⟨c, d, u, v, _, h, _⟩
      · exact absurd e2 h
      · rw [e2] at h; cases h
  | a :: s, b :: t => by
    have ih := cmpBytes_lt_iff s t
    rw [cmpBytes]
    constructor
    · intro h
      by_cases h1 : a.toNat < b.toNat
      · exact ⟨[], a :: s, b :: t, rfl, rfl, Or.inr ⟨a, b, s, t, rfl, rfl, h1⟩⟩
      · rw [if_neg h1] at h
        by_cases h2 : a.toNat > b.toNat
        · rw [if_pos h2] at h; cases h
        · rw [if_neg h2] at h
          have e : a = b := BitVec.eq_of_toNat_eq (by omega)
          subst e
          obtain ⟨p, s', t', e1, e2, h⟩ := ih.1 h
          exact ⟨a :: p, s', t', by rw [e1]; rfl, by rw [e2]; rfl, h⟩
    · rintro ⟨p, s', t', e1, e2, h⟩
      cases p with
      | nil =>
        simp only [List.nil_append] at e1 e2
        rcases h with ⟨h, _⟩ | ⟨c, d, u, v, e3, e4, h⟩
        · rw [h] at e1; cases e1
        · rw [← e1] at e3; rw [← e2] at e4
          injection e3 with e3 _; injection e4 with e4 _
          subst e3 e4
          rw [if_pos h]
      | cons c p =>
        simp only [List.cons_append, List.cons.injEq] at e1 e2
        obtain ⟨rfl, e1⟩ := e1
        obtain ⟨rfl, e2⟩ := e2
        rw [if_neg (by omega), if_neg (by omega)]
        exact ih.2 ⟨p, s', t', e1, e2, h⟩

theorem strcmp_eq_iff (s t : List Byte) : strcmp s t = .eq ↔ cstr s = cstr t := cmpBytes_eq_iff _ _
theorem strcmp_lt_iff (s t : List Byte) : strcmp s t = .lt ↔ LexLt (cstr s) (cstr t) := cmpBytes_lt_iff _ _

theorem blobcmp_cmpBytes (s t : List Byte) : blobcmp s t = cmpBytes s t := by
  rw [blobcmp_eq, cmpBytes_eq]

theorem lexLt_irrefl (s : List Byte) : ¬ LexLt s s := by
  rw [← cmpBytes_lt_iff, (cmpBytes_eq_iff s s).2 rfl]
  decide

theorem lexLt_nil (s : List Byte) : LexLt [] s ↔ s ≠ [] := by
  rw [← cmpBytes_lt_iff]
  cases s <;> simp [cmpBytes]

theorem not_lexLt_nil (s : List Byte) : ¬ LexLt s [] := by
  rw [← cmpBytes_lt_iff]
  cases s <;> simp [cmpBytes]

/-- language, type or prefix, then the string -/
theorem ext_cases (e f : Option (List Byte)) (r : Ordering) :
    ((match extcmp e f with
      | some r => some r
      | none => some r) = some .lt ↔ LexLt (extStr e) (extStr f) ∨ (extStr e = extStr f ∧ r = .lt)) ∧
    ((match extcmp e f with
      | some r => some r
      | none => some r) = some .eq ↔ extStr e = extStr f ∧ r = .eq) := by
  cases e with
  | none => cases f with
    | none => simp [extcmp, extStr, lexLt_irrefl]
    | some f =>
      simp only [extcmp, extStr, cstr, lexLt_nil]
      cases f.takeWhile (· != 0) <;> simp
  | some e => cases f with
    | none =>
      simp only [extcmp, extStr, cstr]
      cases e.takeWhile (· != 0) with
      | nil => simp [lexLt_nil]
      | cons c l => simp [not_lexLt_nil]
    | some f =>
      simp only [extcmp, extStr]
      have h1 := strcmp_eq_iff e f
      have h2 := strcmp_lt_iff e f
      cases h : strcmp e f with
      | lt =>
        rw [h] at h1 h2
        have k1 := h2.1 rfl
        have k2 : ¬ cstr e = cstr f := fun e => by cases h1.2 e
        simp [k1, k2]
      | eq =>
        rw [h] at h1 h2
        have k1 : ¬ LexLt (cstr e) (cstr f) := fun e => by cases h2.2 e
        have k2 := h1.1 rfl
        simp [k2, lexLt_irrefl]
      | gt =>
        rw [h] at h1 h2
        have k1 : ¬ LexLt (cstr e) (cstr f) := fun e => by cases h2.2 e
        have k2 : ¬ cstr e = cstr f := fun e => by cases h1.2 e
        simp [k1, k2]

theorem dblMag (b : BitVec 64) : (b.extractLsb' 0 63).toNat =
    (b.extractLsb' 52 11).toNat * 2 ^ 52 + (b.extractLsb' 0 52).toNat ∧ (b.extractLsb' 0 52).toNat < 2 ^ 52 := by
  simp only [BitVec.extractLsb'_toNat, Nat.shiftRight_eq_div_pow]
  constructor <;> omega

/-- the magnitude, times 2^1074 -/
def mag (e m : Nat) : Nat := if e = 0 then m else (2 ^ 52 + m) * 2 ^ (e - 1)

theorem mag_lt {e m e' m' : Nat} (hm : m < 2 ^ 52) (hm' : m' < 2 ^ 52) (h : e * 2 ^ 52 + m < e' * 2 ^ 52 + m') :
    mag e m < mag e' m' := by
  unfold mag
  rcases Nat.lt_trichotomy e e' with he | he | he
  · rw [if_neg (show ¬ e' = 0 by omega)]
    split
    · have : 1 ≤ 2 ^ (e' - 1) := Nat.one_le_two_pow
      calc m < 2 ^ 52 * 1 := by omega
        _ ≤ (2 ^ 52 + m') * 2 ^ (e' - 1) := Nat.mul_le_mul (by omega) this
    · have hp : 2 ^ (e - 1) * 2 ≤ 2 ^ (e' - 1) := by
        rw [← Nat.pow_succ]
        exact Nat.pow_le_pow_right (by decide) (by omega)
      have h0 : 0 < 2 ^ (e - 1) := Nat.two_pow_pos _
      calc (2 ^ 52 + m) * 2 ^ (e - 1) < (2 ^ 52 * 2) * 2 ^ (e - 1) := Nat.mul_lt_mul_of_pos_right (by omega) h0
        _ = 2 ^ 52 * (2 ^ (e - 1) * 2) := by rw [Nat.mul_assoc, Nat.mul_comm 2]
        _ ≤ (2 ^ 52 + m') * 2 ^ (e' - 1) := Nat.mul_le_mul (by omega) hp
  · subst he
    have : m < m' := by omega
    split
    · exact this
    · exact Nat.mul_lt_mul_of_pos_right (by omega) (Nat.two_pow_pos _)
  · exfalso
    have : (e' + 1) * 2 ^ 52 ≤ e * 2 ^ 52 := Nat.mul_le_mul_right _ he
    omega

theorem mag_mono {e m e' m' : Nat} (hm : m < 2 ^ 52) (hm' : m' < 2 ^ 52) :
    (mag e m < mag e' m' ↔ e * 2 ^ 52 + m < e' * 2 ^ 52 + m') ∧
    (mag e m = mag e' m' ↔ e * 2 ^ 52 + m = e' * 2 ^ 52 + m') := by
  rcases Nat.lt_trichotomy (e * 2 ^ 52 + m) (e' * 2 ^ 52 + m') with h | h | h
  · have := mag_lt hm hm' h
    constructor <;> omega
  · have he : e = e' := by
      rcases Nat.lt_trichotomy e e' with he | he | he
      · have : (e + 1) * 2 ^ 52 ≤ e' * 2 ^ 52 := Nat.mul_le_mul_right _ he
        omega
      · exact he
      · have : (e' + 1) * 2 ^ 52 ≤ e * 2 ^ 52 := Nat.mul_le_mul_right _ he
        omega
    subst he
    have : m = m' := by omega
    subst this
    simp
  · have := mag_lt hm' hm h
    constructor <;> omega

theorem mag_zero {e m : Nat} (hm : m < 2 ^ 52) : mag e m = 0 ↔ e * 2 ^ 52 + m = 0 := by
  have := (mag_mono (e := e) (m := m) (e' := 0) (m' := 0) hm (by decide)).2
  have h0 : mag 0 0 = 0 := rfl
  rw [h0] at this
  rw [this]

theorem dblNum_iff (x y : BitVec 64) : (dblKey x < dblKey y ↔ dblNum x < dblNum y) ∧ (dblKey x = dblKey y ↔ dblNum x = dblNum y) := by
  obtain ⟨hx, hx'⟩ := dblMag x
  obtain ⟨hy, hy'⟩ := dblMag y
  have h1 := mag_mono hx' hy' (e := (x.extractLsb' 52 11).toNat) (e' := (y.extractLsb' 52 11).toNat)
  have h2 := mag_mono hy' hx' (e' := (x.extractLsb' 52 11).toNat) (e := (y.extractLsb' 52 11).toNat)
  have h3 := mag_zero hx' (e := (x.extractLsb' 52 11).toNat)
  have h4 := mag_zero hy' (e := (y.extractLsb' 52 11).toNat)
  have ex : dblNum x = if x.getLsbD 63 then - (mag (x.extractLsb' 52 11).toNat (x.extractLsb' 0 52).toNat : Int)
    else (mag (x.extractLsb' 52 11).toNat (x.extractLsb' 0 52).toNat : Int) := rfl
  have ey : dblNum y = if y.getLsbD 63 then - (mag (y.extractLsb' 52 11).toNat (y.extractLsb' 0 52).toNat : Int)
    else (mag (y.extractLsb' 52 11).toNat (y.extractLsb' 0 52).toNat : Int) := rfl
  rw [ex, ey, dblKey, dblKey]
  rw [← hx] at h1 h2 h3
  rw [← hy] at h1 h2 h4
  clear ex ey hx hy hx' hy'
  generalize mag (x.extractLsb' 52 11).toNat (x.extractLsb' 0 52).toNat = p at *
  generalize mag (y.extractLsb' 52 11).toNat (y.extractLsb' 0 52).toNat = q at *
  generalize (x.extractLsb' 0 63).toNat = k at *
  generalize (y.extractLsb' 0 63).toNat = l at *
  cases x.getLsbD 63 <;> cases y.getLsbD 63 <;> simp only [if_true, if_false, Bool.false_eq_true] <;> omega

/-! ### The comparison -/

theorem gtOrLt_lt (b : Bool) : gtOrLt b = .lt ↔ b = false := by cases b <;> simp [gtOrLt]
theorem gtOrLt_eq (b : Bool) : gtOrLt b ≠ .eq := by cases b <;> simp [gtOrLt]

/-- what is said about the comparison of fields -/
def Right (db : Db) (f : Word → Word → Option Ordering) (S L : Word → Word → Prop) : Prop :=
  ∀ x y, x ≠ y → (db.val x).isSome → (db.val y).isSome →
    (f x y = some .lt ↔ L x y) ∧ (f x y = some .eq ↔ S x y) ∧ (f x y).isSome ∧ ¬ (L x y ∧ S x y)

theorem cmpFields_iff {db : Db} {f : Word → Word → Option Ordering} {S L : Word → Word → Prop}
    (hf : Right db f S L) (hS : ∀ x, S x x) (hL : ∀ x, ¬ L x x) : ∀ xs ys : List Word, xs.length = ys.length →
    (∀ x ∈ xs, (db.val x).isSome) → (∀ y ∈ ys, (db.val y).isSome) →
    (cmpFields f xs ys = some .lt ↔ FirstLess S L xs ys) ∧ (cmpFields f xs ys = some .eq ↔ Pointwise S xs ys)
  | [], [], _, _, _ => by
    constructor
    · constructor
      · intro h; simp [cmpFields] at h
      · rintro ⟨i, _, x, y, h, _⟩; simp at h
    · constructor
      · intro _; exact ⟨rfl, fun i x y h _ => by simp at h⟩
      · intro _; rfl
  | x :: xs, y :: ys, hl, hx, hy => by
    have ih := cmpFields_iff hf hS hL xs ys (by simpa using hl) (fun a ha => hx a (List.mem_cons_of_mem _ ha))
      (fun a ha => hy a (List.mem_cons_of_mem _ ha))
    have head : S x y → ((FirstLess S L (x :: xs) (y :: ys) ↔ FirstLess S L xs ys ∨ L x y) ∧
        (Pointwise S (x :: xs) (y :: ys) ↔ Pointwise S xs ys)) := by
      intro hs
      refine ⟨⟨?_, ?_⟩, ⟨?_, ?_⟩⟩
      · rintro ⟨i, h1, u, v, h2, h3, h4⟩
        cases i with
        | zero =>
          simp only [List.getElem?_cons_zero, Option.some.injEq] at h2 h3
          subst h2 h3
          exact Or.inr h4
        | succ i =>
          refine Or.inl ⟨i, fun j u v hj => ?_, u, v, by simpa using h2, by simpa using h3, h4⟩
          have := h1 (j + 1) u v (by omega)
          simpa using this
      · rintro (⟨i, h1, u, v, h2, h3, h4⟩ | h)
        · refine ⟨i + 1, fun j u v hj => ?_, u, v, by simpa using h2, by simpa using h3, h4⟩
          cases j with
          | zero =>
            intro e1 e2
            simp only [List.getElem?_cons_zero, Option.some.injEq] at e1 e2
            subst e1 e2
            exact hs
          | succ j => simpa using h1 j u v (by omega)
        · exact ⟨0, fun j u v hj => by omega, x, y, rfl, rfl, h⟩
      · rintro ⟨h1, h2⟩
        exact ⟨by simpa using h1, fun i u v e1 e2 => h2 (i + 1) u v (by simpa using e1) (by simpa using e2)⟩
      · rintro ⟨h1, h2⟩
        refine ⟨by simpa using h1, fun i u v => ?_⟩
        cases i with
        | zero =>
          intro e1 e2
          simp only [List.getElem?_cons_zero, Option.some.injEq] at e1 e2
          subst e1 e2
          exact hs
        | succ i => simpa using h2 i u v
    rw [cmpFields]
    by_cases e : x = y
    · subst e
      rw [if_pos rfl]
      have hh := head (hS x)
      rw [hh.1, hh.2, ih.1, ih.2]
      exact ⟨⟨Or.inl, fun h => h.elim id (fun h => absurd h (hL x))⟩, Iff.rfl⟩
    · rw [if_neg e]
      obtain ⟨r1, r2, r3, r4⟩ := hf x y e (hx x List.mem_cons_self) (hy y List.mem_cons_self)
      obtain ⟨o, ho⟩ := Option.isSome_iff_exists.1 r3
      rw [ho] at r1 r2 ⊢
      cases o with
      | eq =>
        have hs := r2.1 rfl
        have hh := head hs
        have hn : ¬ L x y := fun h => r4 ⟨h, hs⟩
        show (cmpFields f xs ys = some .lt ↔ _) ∧ (cmpFields f xs ys = some .eq ↔ _)
        rw [hh.1, hh.2, ih.1, ih.2]
        exact ⟨⟨Or.inl, fun h => h.elim id (fun h => absurd h hn)⟩, Iff.rfl⟩
      | lt =>
        have hl := r1.1 rfl
        refine ⟨⟨fun _ => ⟨0, fun j u v hj => by omega, x, y, rfl, rfl, hl⟩, fun _ => rfl⟩, ⟨fun h => (nomatch h), fun h => ?_⟩⟩
        exact absurd (r2.2 (h.2 0 x y rfl rfl)) (by simp)
      | gt =>
        refine ⟨⟨fun h => (nomatch h), ?_⟩, ⟨fun h => (nomatch h), fun h => ?_⟩⟩
        · rintro ⟨i, h1, u, v, h2, h3, h4⟩
          cases i with
          | zero =>
            simp only [List.getElem?_cons_zero, Option.some.injEq] at h2 h3
            subst h2 h3
            exact absurd (r1.2 h4) (by simp)
          | succ i => exact absurd (r2.2 (h1 0 x y (by omega) rfl rfl)) (by simp)
        · exact absurd (r2.2 (h.2 0 x y rfl rfl)) (by simp)

theorem ne_of_val {db : Db} {a b : Word} {v w : Val} (ha : db.val a = some v) (hb : db.val b = some w) (h : v ≠ w) : a ≠ b := by
  intro e
  subst e
  rw [ha] at hb
  exact h (Option.some.inj hb)

theorem cstr_one (c : Byte) : cstr [c] = if c.toNat = 0 then [] else [c] := by
  unfold cstr
  by_cases h : c.toNat = 0
  · have : c = 0#8 := BitVec.eq_of_toNat_eq h
    subst this
    rfl
  · have hb : (c != 0#8) = true := by
      rw [bne_iff_ne]
      intro e
      rw [e] at h
      exact h rfl
    rw [if_neg h, List.takeWhile_cons]
    exact if_pos hb

theorem cstr_single (c d : Byte) : (LexLt (cstr [c]) (cstr [d]) ↔ c.toNat < d.toNat) ∧ (cstr [c] = cstr [d] ↔ c = d) := by
  rw [← cmpBytes_lt_iff, cstr_one, cstr_one]
  by_cases hc : c.toNat = 0 <;> by_cases hd : d.toNat = 0
  · rw [if_pos hc, if_pos hd]
    have : c = d := BitVec.eq_of_toNat_eq (by omega)
    subst this
    simp [cmpBytes]
  · rw [if_pos hc, if_neg hd]
    have : c ≠ d := fun e => hd (e ▸ hc)
    simp only [cmpBytes, this, iff_false, true_iff]
    exact ⟨by omega, by simp⟩
  · rw [if_neg hc, if_pos hd]
    have : c ≠ d := fun e => hc (e ▸ hd)
    simp [cmpBytes, this]
    omega
  · rw [if_neg hc, if_neg hd]
    refine ⟨?_, by simp⟩
    simp only [cmpBytes]
    by_cases h : c.toNat < d.toNat
    · simp [h]
    · rw [if_neg h]
      simp only [h, iff_false]
      split <;> simp

/-- the values: what `cmpVal` gives -/
theorem cmpVal_iff {db : Db} (hg : Good db) {sub : Option (Word → Word → Option Ordering)}
    {S : Option (Word → Word → Prop)} {SL : Option ((Word → Word → Prop) × (Word → Word → Prop))}
    (hr : ∀ a b p q, a ≠ b → db.val a = some (.record p) → db.val b = some (.record q) →
      (cmpRec db sub p q = some .lt ↔ LessVal db SL a b (.record p) (.record q)) ∧
      (cmpRec db sub p q = some .eq ↔ SameVal db S (.record p) (.record q)))
    {a b : Word} (hab : a ≠ b) {v w : Val} (ha : db.val a = some v) (hb : db.val b = some w) (ht : v.ty = w.ty) :
    (cmpVal db sub a b v w = some .lt ↔ LessVal db SL a b v w) ∧
    (cmpVal db sub a b v w = some .eq ↔ SameVal db S v w) := by
  cases v with
  | null => cases w <;> first | (exact absurd (hg.null a b ha hb) hab) | (simp [Val.ty] at ht)
  | record p =>
    cases w <;> first | (simp [Val.ty] at ht; done) | skip
    exact hr a b _ _ hab ha hb
  | int i =>
    cases w <;> first | (simp [Val.ty] at ht; done) | skip
    rename_i j
    show (some (if i = j then Ordering.eq else gtOrLt (decide (i > j))) = some .lt ↔ i < j) ∧
      (some (if i = j then Ordering.eq else gtOrLt (decide (i > j))) = some .eq ↔ i = j)
    by_cases h : i = j
    · subst h; simp
    · simp [h, gtOrLt_lt, gtOrLt_eq]; omega
  | dbl x =>
    cases w <;> first | (simp [Val.ty] at ht; done) | skip
    rename_i y
    show (some (if dblEq x y then Ordering.eq else gtOrLt (dblGt x y)) = some .lt ↔ dblNum x < dblNum y) ∧
      (some (if dblEq x y then Ordering.eq else gtOrLt (dblGt x y)) = some .eq ↔ dblNum x = dblNum y)
    obtain ⟨h1, h2⟩ := dblNum_iff x y
    simp only [dblEq, dblGt, hg.nan a x ha, hg.nan b y hb, Bool.not_false, Bool.true_and, beq_iff_eq]
    rw [← h1, ← h2]
    by_cases h : dblKey x = dblKey y
    · simp [h]
    · simp [h, gtOrLt_lt, gtOrLt_eq]; omega
  | str s l =>
    cases w <;> first | (simp [Val.ty] at ht; done) | skip
    rename_i t m
    show (some (strcmp s t) = some .lt ↔ LexLt (cstr s) (cstr t)) ∧ (some (strcmp s t) = some .eq ↔ cstr s = cstr t)
    rw [Option.some.injEq, Option.some.injEq, strcmp_lt_iff, strcmp_eq_iff]
    exact ⟨Iff.rfl, Iff.rfl⟩
  | xml s e =>
    cases w <;> first | (simp [Val.ty] at ht; done) | skip
    rename_i t f
    have := ext_cases e f (strcmp s t)
    rw [strcmp_lt_iff, strcmp_eq_iff] at this
    exact this
  | uri s e =>
    cases w <;> first | (simp [Val.ty] at ht; done) | skip
    rename_i t f
    have := ext_cases e f (strcmp s t)
    rw [strcmp_lt_iff, strcmp_eq_iff] at this
    exact this
  | blob s =>
    cases w <;> first | (simp [Val.ty] at ht; done) | skip
    rename_i t
    show (some (blobcmp s t) = some .lt ↔ LexLt s t) ∧ (some (blobcmp s t) = some .eq ↔ s = t)
    rw [Option.some.injEq, Option.some.injEq, blobcmp_cmpBytes, cmpBytes_lt_iff, cmpBytes_eq_iff]
    exact ⟨Iff.rfl, Iff.rfl⟩
  | char c =>
    cases w <;> first | (simp [Val.ty] at ht; done) | skip
    rename_i d
    show (some (strcmp [c] [d]) = some .lt ↔ c.toNat < d.toNat) ∧ (some (strcmp [c] [d]) = some .eq ↔ False)
    rw [Option.some.injEq, Option.some.injEq, strcmp_lt_iff, strcmp_eq_iff, (cstr_single c d).1, (cstr_single c d).2]
    exact ⟨Iff.rfl, fun h => hab (hg.char a b d (h ▸ ha) hb), False.elim⟩
  | fix m =>
    cases w <;> first | (simp [Val.ty] at ht; done) | skip
    rename_i n
    have hn : m ≠ n := fun e => hab (hg.fix a b n (e ▸ ha) hb)
    show (some (gtOrLt (decide (m > n))) = some .lt ↔ m < n) ∧ (some (gtOrLt (decide (m > n))) = some .eq ↔ False)
    simp [gtOrLt_lt, gtOrLt_eq]; omega
  | date m =>
    cases w <;> first | (simp [Val.ty] at ht; done) | skip
    rename_i n
    have hn : m ≠ n := fun e => hab (hg.date a b n (e ▸ ha) hb)
    show (some (gtOrLt (decide (m > n))) = some .lt ↔ m < n) ∧ (some (gtOrLt (decide (m > n))) = some .eq ↔ False)
    simp [gtOrLt_lt, gtOrLt_eq]; omega
  | time m =>
    cases w <;> first | (simp [Val.ty] at ht; done) | skip
    rename_i n
    have hn : m ≠ n := fun e => hab (hg.time a b n (e ▸ ha) hb)
    show (some (gtOrLt (decide (m > n))) = some .lt ↔ m < n) ∧ (some (gtOrLt (decide (m > n))) = some .eq ↔ False)
    simp [gtOrLt_lt, gtOrLt_eq]; omega
  | anon =>
    cases w <;> first | (simp [Val.ty] at ht; done) | skip
    show (some (gtOrLt (decide (a > b))) = some .lt ↔ a < b) ∧ (some (gtOrLt (decide (a > b))) = some .eq ↔ False)
    rw [Option.some.injEq, Option.some.injEq, gtOrLt_lt]
    refine ⟨?_, ⟨fun h => gtOrLt_eq _ h, False.elim⟩⟩
    rw [decide_eq_false_iff_not]
    exact ⟨fun h => Int.lt_iff_le_and_ne.2 ⟨Int.not_lt.1 h, hab⟩, fun h h' => Int.lt_asymm h h'⟩
  | var m =>
    cases w <;> first | (simp [Val.ty] at ht; done) | skip
    rename_i n
    have hn : m ≠ n := fun e => hab (hg.var a b n (e ▸ ha) hb)
    show (some (gtOrLt (decide (m > n))) = some .lt ↔ m < n) ∧ (some (gtOrLt (decide (m > n))) = some .eq ↔ False)
    simp [gtOrLt_lt, gtOrLt_eq]; omega

theorem lessVal_ty {db : Db} {SL : Option ((Word → Word → Prop) × (Word → Word → Prop))} {a b : Word} {v w : Val}
    (h : LessVal db SL a b v w) : v.ty = w.ty := by
  cases v <;> cases w <;> first | rfl | exact False.elim h

theorem sameVal_ty {db : Db} {S : Option (Word → Word → Prop)} {v w : Val} (h : SameVal db S v w) : v.ty = w.ty := by
  cases v <;> cases w <;> first | rfl | exact False.elim h

theorem cmpWith_iff {db : Db} (hg : Good db) {sub : Option (Word → Word → Option Ordering)}
    {S : Option (Word → Word → Prop)} {SL : Option ((Word → Word → Prop) × (Word → Word → Prop))}
    (hr : ∀ a b p q, a ≠ b → db.val a = some (.record p) → db.val b = some (.record q) →
      (cmpRec db sub p q = some .lt ↔ LessVal db SL a b (.record p) (.record q)) ∧
      (cmpRec db sub p q = some .eq ↔ SameVal db S (.record p) (.record q)))
    {a b : Word} (hab : a ≠ b) {v w : Val} (ha : db.val a = some v) (hb : db.val b = some w) :
    (cmpWith db sub a b = some .lt ↔ v.ty < w.ty ∨ LessVal db SL a b v w) ∧
    (cmpWith db sub a b = some .eq ↔ SameVal db S v w) := by
  have hta : db.ty a = v.ty := by simp [Db.ty, ha]
  have htb : db.ty b = w.ty := by simp [Db.ty, hb]
  unfold cmpWith
  rw [hta, htb]
  by_cases ht : v.ty = w.ty
  · rw [if_pos ht]
    simp only [ha, hb]
    obtain ⟨h1, h2⟩ := cmpVal_iff hg hr hab ha hb ht
    exact ⟨h1.trans ⟨Or.inr, fun h => h.elim (fun h => by omega) id⟩, h2⟩
  · rw [if_neg ht]
    refine ⟨⟨fun h => ?_, fun h => ?_⟩, ⟨fun h => ?_, fun h => absurd (sameVal_ty h) ht⟩⟩
    · have := (gtOrLt_lt _).1 (Option.some.inj h)
      simp at this
      exact Or.inl (by omega)
    · rcases h with h | h
      · rw [Option.some.injEq, gtOrLt_lt]
        simp; omega
      · exact absurd (lessVal_ty h) ht
    · exact absurd (Option.some.inj h) (gtOrLt_eq _)

theorem same_refl (db : Db) (d : Nat) (a : Word) : Same db d a a := by
  cases d <;> exact Or.inl rfl

theorem lexLt_asymm {s t : List Byte} (h : LexLt s t) : cmpBytes t s = .gt := by
  have h1 := (cmpBytes_lt_iff s t).2 h
  rw [cmpBytes_eq] at h1 ⊢
  exact Std.OrientedCmp.gt_iff_lt.2 h1

theorem firstLess_irrefl {S L : Word → Word → Prop} (hL : ∀ x, ¬ L x x) (xs : List Word) : ¬ FirstLess S L xs xs := by
  rintro ⟨i, _, x, y, h1, h2, h3⟩
  rw [h1] at h2
  cases h2
  exact hL x h3

theorem less_irrefl (db : Db) : ∀ (d : Nat) (a : Word), ¬ Less db d a a
  | 0, a => by
    rintro ⟨v, w, h1, h2, h⟩
    rw [h1] at h2; cases h2
    rcases h with h | h
    · omega
    · cases v <;> first
        | exact absurd h (Int.lt_irrefl _)
        | exact absurd h (Nat.lt_irrefl _)
        | exact lexLt_irrefl _ h
        | exact h.elim (lexLt_irrefl _) (fun h => lexLt_irrefl _ h.2)
        | exact h
  | d + 1, a => by
    rintro ⟨v, w, h1, h2, h⟩
    rw [h1] at h2; cases h2
    rcases h with h | h
    · omega
    · cases v <;> first
        | exact absurd h (Int.lt_irrefl _)
        | exact absurd h (Nat.lt_irrefl _)
        | exact lexLt_irrefl _ h
        | exact h.elim (lexLt_irrefl _) (fun h => lexLt_irrefl _ h.2)
        | exact h
        | skip
      obtain ⟨xs, ys, e1, e2, h⟩ := h
      rw [e1] at e2; cases e2
      rcases h with h | ⟨_, h⟩
      · omega
      · exact firstLess_irrefl (less_irrefl db d) xs h

theorem wgCompare_iff {db : Db} (hg : Good db) : ∀ d, Right db (wgCompare db d) (Same db d) (Less db d)
  | 0 => by
    intro a b hab ha hb
    obtain ⟨v, hv⟩ := Option.isSome_iff_exists.1 ha
    obtain ⟨w, hw⟩ := Option.isSome_iff_exists.1 hb
    have key := cmpWith_iff hg (sub := none) (S := none) (SL := none) (fun a b p q hab ha hb => by
      have hn : p ≠ q := fun e => hab (hg.record a b q (e ▸ ha) hb)
      show (some (gtOrLt (decide (p > q))) = some .lt ↔ p < q) ∧ (some (gtOrLt (decide (p > q))) = some .eq ↔ False)
      simp [gtOrLt_lt, gtOrLt_eq]; omega) hab hv hw
    have h1 : wgCompare db 0 a b = some .lt ↔ Less db 0 a b := by
      refine key.1.trans ⟨fun h => ⟨v, w, hv, hw, h⟩, ?_⟩
      rintro ⟨v', w', e1, e2, h⟩
      rw [hv] at e1; rw [hw] at e2
      cases e1; cases e2
      exact h
    have h2 : wgCompare db 0 a b = some .eq ↔ Same db 0 a b := by
      refine key.2.trans ⟨fun h => Or.inr ⟨v, w, hv, hw, h⟩, ?_⟩
      rintro (h | ⟨v', w', e1, e2, h⟩)
      · exact absurd h hab
      · rw [hv] at e1; rw [hw] at e2
        cases e1; cases e2
        exact h
    refine ⟨h1, h2, ?_, ?_⟩
    · rw [wgCompare_eq hg 0 a b hab (Or.inl ha)]; rfl
    · rintro ⟨hl, hs⟩
      have e1 := h1.2 hl
      rw [h2.2 hs] at e1
      cases e1
  | d + 1 => by
    have ih := wgCompare_iff hg d
    intro a b hab ha hb
    obtain ⟨v, hv⟩ := Option.isSome_iff_exists.1 ha
    obtain ⟨w, hw⟩ := Option.isSome_iff_exists.1 hb
    have key := cmpWith_iff hg (sub := some (wgCompare db d)) (S := some (Same db d))
      (SL := some (Same db d, Less db d)) (fun a b p q hab ha hb => by
      obtain ⟨xs, hx, hxv⟩ := hg.fields a p ha
      obtain ⟨ys, hy, hyv⟩ := hg.fields b q hb
      have e : cmpRec db (some (wgCompare db d)) p q =
          if xs.length ≠ ys.length then some (gtOrLt (decide (xs.length > ys.length))) else cmpFields (wgCompare db d) xs ys := by
        simp only [cmpRec, hx, hy]
      have el : LessVal db (some (Same db d, Less db d)) a b (.record p) (.record q) ↔
          (xs.length < ys.length ∨ (xs.length = ys.length ∧ FirstLess (Same db d) (Less db d) xs ys)) := by
        constructor
        · rintro ⟨xs', ys', e1, e2, h⟩
          rw [hx] at e1; rw [hy] at e2
          cases e1; cases e2
          exact h
        · intro h
          exact ⟨xs, ys, hx, hy, h⟩
      have es : SameVal db (some (Same db d)) (.record p) (.record q) ↔ Pointwise (Same db d) xs ys := by
        constructor
        · rintro ⟨xs', ys', e1, e2, h⟩
          rw [hx] at e1; rw [hy] at e2
          cases e1; cases e2
          exact h
        · intro h
          exact ⟨xs, ys, hx, hy, h⟩
      rw [e, el, es]
      by_cases hl : xs.length = ys.length
      · rw [if_neg (by simp [hl])]
        obtain ⟨k1, k2⟩ := cmpFields_iff ih (same_refl db d) (less_irrefl db d) xs ys hl hxv hyv
        exact ⟨k1.trans ⟨fun h => Or.inr ⟨hl, h⟩, fun h => h.elim (fun h => by omega) (·.2)⟩, k2⟩
      · rw [if_pos hl]
        refine ⟨?_, ⟨fun h => absurd (Option.some.inj h) (gtOrLt_eq _), fun h => absurd h.1 hl⟩⟩
        rw [Option.some.injEq, gtOrLt_lt]
        simp [hl]; omega) hab hv hw
    have h1 : wgCompare db (d + 1) a b = some .lt ↔ Less db (d + 1) a b := by
      refine key.1.trans ⟨fun h => ⟨v, w, hv, hw, h⟩, ?_⟩
      rintro ⟨v', w', e1, e2, h⟩
      rw [hv] at e1; rw [hw] at e2
      cases e1; cases e2
      exact h
    have h2 : wgCompare db (d + 1) a b = some .eq ↔ Same db (d + 1) a b := by
      refine key.2.trans ⟨fun h => Or.inr ⟨v, w, hv, hw, h⟩, ?_⟩
      rintro (h | ⟨v', w', e1, e2, h⟩)
      · exact absurd h hab
      · rw [hv] at e1; rw [hw] at e2
        cases e1; cases e2
        exact h
    refine ⟨h1, h2, ?_, ?_⟩
    · rw [wgCompare_eq hg (d + 1) a b hab (Or.inl ha)]; rfl
    · rintro ⟨hl, hs⟩
      have e1 := h1.2 hl
      rw [h2.2 hs] at e1
      cases e1

end Gkc.Props.Cmp

namespace Gkc.Props
open Gkc.Compare Cmp

/-- **C52** (partial: no NaN): the comparison says LESSTHAN, EQUAL or GREATER just when the one value
is less than, the same as, or greater than the other. -/
theorem C52_compare_right_partial {db : Db} (hg : Good db) {a b : Word} (ha : (db.val a).isSome) (hb : (db.val b).isSome) :
    (WG_COMPARE db a b = some .lt ↔ Less db 7 a b) ∧
    (WG_COMPARE db a b = some .eq ↔ Same db 7 a b) ∧
    (WG_COMPARE db a b = some .gt ↔ Less db 7 b a) := by
  have sw : WG_COMPARE db a b = some .gt ↔ WG_COMPARE db b a = some .lt := by
    rw [WG_COMPARE_eq hg a b (Or.inl ha), WG_COMPARE_eq hg b a (Or.inl hb), Option.some.injEq, Option.some.injEq]
    exact Std.OrientedCmp.gt_iff_lt
  have lt : ∀ {x y : Word}, (db.val x).isSome → (db.val y).isSome → (WG_COMPARE db x y = some .lt ↔ Less db 7 x y) := by
    intro x y hx hy
    unfold WG_COMPARE
    by_cases h : x = y
    · subst h
      rw [if_pos rfl]
      exact ⟨fun h => (nomatch h), fun h => absurd h (less_irrefl db 7 x)⟩
    · rw [if_neg h]
      exact (wgCompare_iff hg 7 x y h hx hy).1
  refine ⟨lt ha hb, ?_, sw.trans (lt hb ha)⟩
  unfold WG_COMPARE
  by_cases h : a = b
  · subst h
    rw [if_pos rfl]
    exact ⟨fun _ => same_refl db 7 a, fun _ => rfl⟩
  · rw [if_neg h]
    exact (wgCompare_iff hg 7 a b h ha hb).2.1

/-- **C52** (partial: no NaN): the comparison always gives an answer, the answers for (a,b) and (b,a)
agree, and they are transitive: values can be sorted. -/
theorem C52_compare_total_partial {db : Db} (hg : Good db) {a b c : Word} (ha : (db.val a).isSome) (hb : (db.val b).isSome) :
    (∃ o, WG_COMPARE db a b = some o ∧ WG_COMPARE db b a = some o.swap) ∧
    (WG_COMPARE db a b ≠ some .gt → WG_COMPARE db b c ≠ some .gt → WG_COMPARE db a c ≠ some .gt) ∧
    (WG_COMPARE db a b = some .eq → WG_COMPARE db a c = WG_COMPARE db b c) := by
  rw [WG_COMPARE_eq hg a b (Or.inl ha), WG_COMPARE_eq hg b c (Or.inl hb), WG_COMPARE_eq hg a c (Or.inl ha),
    WG_COMPARE_eq hg b a (Or.inl hb)]
  refine ⟨⟨_, rfl, by rw [Std.OrientedCmp.eq_swap (cmp := ocmp db recDepth)]⟩, ?_, ?_⟩
  · intro h1 h2 h3
    have h1' : (ocmp db recDepth a b).isLE := by
      cases h : ocmp db recDepth a b <;> simp_all
    have h2' : (ocmp db recDepth b c).isLE := by
      cases h : ocmp db recDepth b c <;> simp_all
    have h3' := Std.TransCmp.isLE_trans h1' h2'
    rw [Option.some.inj h3] at h3'
    cases h3'
  · intro h
    rw [Std.TransCmp.congr_left (Option.some.inj h)]

/-! ### Examples and witnesses -/

/-- words: 0 the null value, 1 and 2 the integer 7 (two large integers), 3 a double, 4 and 5 strings,
10 and 11 records with each other as a field, 12 a record like 10 -/
def cmpDb : Db where
  val w := match w with
    | 0 => some .null
    | 1 => some (.int 7)
    | 2 => some (.int 7)
    | 3 => some (.dbl 0x3ff8000000000000#64)
    | 4 => some (.str [0x61#8, 0x62#8] none)
    | 5 => some (.str [0x61#8, 0x62#8, 0x63#8] none)
    | 10 => some (.record 100)
    | 11 => some (.record 200)
    | 12 => some (.record 300)
    | _ => none
  fields p := if p = 100 then some [1, 11] else if p = 200 then some [1, 10] else if p = 300 then some [2, 11] else none

theorem cmpDb_good : Good cmpDb := by
  have vals : ∀ a v, cmpDb.val a = some v → (a = 0 ∧ v = .null) ∨ (a = 1 ∧ v = .int 7) ∨ (a = 2 ∧ v = .int 7) ∨
      (a = 3 ∧ v = .dbl 0x3ff8000000000000#64) ∨ (a = 4 ∧ v = .str [0x61#8, 0x62#8] none) ∨
      (a = 5 ∧ v = .str [0x61#8, 0x62#8, 0x63#8] none) ∨ (a = 10 ∧ v = .record 100) ∨ (a = 11 ∧ v = .record 200) ∨
      (a = 12 ∧ v = .record 300) := by
    intro a v h
    simp only [cmpDb] at h
    split at h <;> simp_all
  constructor
  · intro a b h1 h2
    have k1 := vals a _ h1
    have k2 := vals b _ h2
    simp at k1 k2
    rw [k1, k2]
  · intro a b c h1 _
    have := vals a _ h1
    simp at this
  · intro a b c h1 _
    have := vals a _ h1
    simp at this
  · intro a b c h1 _
    have := vals a _ h1
    simp at this
  · intro a b c h1 _
    have := vals a _ h1
    simp at this
  · intro a b c h1 _
    have := vals a _ h1
    simp at this
  · intro a b p h1 h2
    have k1 := vals a _ h1
    have k2 := vals b _ h2
    simp at k1 k2
    rcases k1 with ⟨k1, e1⟩ | ⟨k1, e1⟩ | ⟨k1, e1⟩ <;> subst e1 <;> simp at k2 <;> rw [k1, k2]
  · intro a x h1
    have := vals a _ h1
    simp at this
    rw [this.2]
    decide
  · intro a p h1
    have := vals a _ h1
    simp at this
    rcases this with ⟨_, rfl⟩ | ⟨_, rfl⟩ | ⟨_, rfl⟩
    · exact ⟨[1, 11], rfl, by decide⟩
    · exact ⟨[1, 10], rfl, by decide⟩
    · exact ⟨[2, 11], rfl, by decide⟩

/-- cyclic records, equal integers under different words: all compared -/
example : Good cmpDb ∧ (cmpDb.val 10).isSome ∧ (cmpDb.val 12).isSome ∧
    WG_COMPARE cmpDb 10 12 = some .eq ∧ WG_COMPARE cmpDb 10 11 = some .gt ∧ WG_COMPARE cmpDb 4 5 = some .lt ∧
    WG_COMPARE cmpDb 3 2 = some .gt :=
  ⟨cmpDb_good, by decide, by decide, by decide, by decide, by decide, by decide⟩

/-- two words for a double that is not a number -/
def nanDb : Db where
  val w := match w with
    | 1 => some (.dbl 0x7ff8000000000000#64)
    | 2 => some (.dbl 0x7ff8000000000000#64)
    | _ => none
  fields _ := none

/-- **C52**, why it is partial: of two values that are not numbers each is less than the other. -/
theorem C52_nan_both_less : ∃ (db : Db) (a b : Word), (db.val a).isSome ∧ (db.val b).isSome ∧
    WG_COMPARE db a b = some .lt ∧ WG_COMPARE db b a = some .lt :=
  ⟨nanDb, 1, 2, by decide, by decide, by decide, by decide⟩

/-- strings with a language -/
def langDb : Db where
  val w := match w with
    | 1 => some (.str [0x61#8] (some [0x65#8, 0x6e#8]))
    | 2 => some (.str [0x61#8] (some [0x64#8, 0x65#8]))
    | _ => none
  fields _ := none

/-- **C52**: strings that differ in their language only compare EQUAL. -/
theorem C52_language_ignored : ∃ (db : Db) (a b : Word) (s : List Byte) (l m : List Byte), l ≠ m ∧
    db.val a = some (.str s (some l)) ∧ db.val b = some (.str s (some m)) ∧ WG_COMPARE db a b = some .eq :=
  ⟨langDb, 1, 2, _, _, _, by decide, rfl, rfl, by decide⟩

end Gkc.Props
