import Verif.Compare
/-
The comparison of values written as a lexicographic order of keys, and that it is a total preorder.
-/
namespace Gkc.Compare
open Std

/-- the bytes of a C string as numbers -/
def chars (s : List Byte) : List Nat := (s.takeWhile (· != 0)).map BitVec.toNat

/-- no language, type or prefix is as good as an empty one -/
def extChars (e : Option (List Byte)) : List Nat := match e with
  | none => []
  | some s => chars s

/-- type, language or prefix, characters, number -/
structure Key where
  ty : Int
  ext : List Nat
  chars : List Nat
  num : Int

/-- fields of a record, if the word is one -/
def Db.flds (db : Db) (w : Word) : List Word := match db.val w with
  | some (.record p) => (db.fields p).getD []
  | _ => []

/-- records are compared by length (`deep`) or by address -/
def Db.key (db : Db) (deep : Bool) (w : Word) : Key := match db.val w with
  | none => ⟨-1, [], [], 0⟩
  | some .null => ⟨1, [], [], 0⟩
  | some (.record p) => ⟨2, [], [], if deep then (((db.fields p).getD []).length : Int) else (p : Int)⟩
  | some (.int i) => ⟨3, [], [], i⟩
  | some (.dbl b) => ⟨4, [], [], dblKey b⟩
  | some (.str s _) => ⟨5, [], chars s, 0⟩
  | some (.xml s e) => ⟨6, extChars e, chars s, 0⟩
  | some (.uri s e) => ⟨7, extChars e, chars s, 0⟩
  | some (.blob s) => ⟨8, [], s.map BitVec.toNat, 0⟩
  | some (.char c) => ⟨9, [], chars [c], 0⟩
  | some (.fix n) => ⟨10, [], [], n⟩
  | some (.date n) => ⟨11, [], [], n⟩
  | some (.time n) => ⟨12, [], [], n⟩
  | some .anon => ⟨13, [], [], w⟩
  | some (.var n) => ⟨14, [], [], n⟩

/-- keys in lexicographic order -/
def keyCmp (k l : Key) : Ordering :=
  (compare k.ty l.ty).then ((compare k.ext l.ext).then ((compare k.chars l.chars).then (compare k.num l.num)))

theorem keyCmp_eq : keyCmp = compareLex (compareOn Key.ty) (compareLex (compareOn Key.ext)
    (compareLex (compareOn Key.chars) (compareOn Key.num))) := rfl

instance : TransCmp keyCmp := by
  rw [keyCmp_eq]
  infer_instance

/-- the comparison as an order of keys, with the fields of records after them -/
def ocmp (db : Db) : Nat → Word → Word → Ordering
  | 0 => fun a b => keyCmp (db.key false a) (db.key false b)
  | d + 1 => compareLex (fun a b => keyCmp (db.key true a) (db.key true b))
      (fun a b => List.compareLex (ocmp db d) (db.flds a) (db.flds b))

theorem TransCmp.comap {α β : Type} (f : α → β) (c : β → β → Ordering) [TransCmp c] :
    TransCmp (fun a b => c (f a) (f b)) where
  eq_swap := OrientedCmp.eq_swap (cmp := c)
  isLE_trans := TransCmp.isLE_trans (cmp := c)

instance ocmp_trans (db : Db) : ∀ d, TransCmp (ocmp db d)
  | 0 => TransCmp.comap (db.key false) keyCmp
  | d + 1 => by
    have := ocmp_trans db d
    have h1 := TransCmp.comap (db.key true) keyCmp
    have h2 := TransCmp.comap db.flds (List.compareLex (ocmp db d))
    unfold ocmp
    infer_instance

theorem ocmp_self (db : Db) (d : Nat) (a : Word) : ocmp db d a a = .eq := ReflCmp.compare_self

/-! ### The model computes this order -/

theorem compare_int (i j : Int) : compare i j = if i = j then .eq else gtOrLt (decide (i > j)) := by
  unfold gtOrLt
  rcases Int.lt_trichotomy i j with h | h | h
  · rw [Int.compare_eq_lt.2 h, if_neg (by omega)]
    simp; omega
  · subst h
    simp
  · rw [Int.compare_eq_gt.2 h, if_neg (by omega)]
    simp; omega

theorem compare_nat (i j : Nat) : compare i j = if i < j then .lt else if i > j then .gt else .eq := by
  rcases Nat.lt_trichotomy i j with h | h | h
  · rw [Nat.compare_eq_lt.2 h, if_pos h]
  · subst h
    simp
  · rw [Nat.compare_eq_gt.2 h, if_neg (by omega), if_pos h]

theorem cmpBytes_eq : ∀ s t : List Byte, cmpBytes s t = compare (s.map BitVec.toNat) (t.map BitVec.toNat)
  | [], [] => rfl
  | [], _ :: _ => rfl
  | _ :: _, [] => rfl
  | a :: as, b :: bs => by
    rw [cmpBytes, List.map_cons, List.map_cons, List.compare_cons_cons, compare_nat]
    by_cases h1 : a.toNat < b.toNat
    · rw [if_pos h1, if_pos h1]; rfl
    · by_cases h2 : a.toNat > b.toNat
      · rw [if_neg h1, if_pos h2, if_neg h1, if_pos h2]; rfl
      · rw [if_neg h1, if_neg h2, if_neg h1, if_neg h2, cmpBytes_eq as bs]; rfl

theorem strcmp_eq (s t : List Byte) : strcmp s t = compare (chars s) (chars t) := cmpBytes_eq _ _

theorem cmpBytes_take : ∀ s t : List Byte,
    cmpBytes s t = (cmpBytes (s.take (min s.length t.length)) (t.take (min s.length t.length))).then
      (compare s.length t.length)
  | [], [] => rfl
  | [], b :: t => by simp [cmpBytes, compare_nat]
  | a :: s, [] => by simp [cmpBytes, compare_nat]
  | a :: s, b :: t => by
    have e : min (a :: s).length (b :: t).length = min s.length t.length + 1 := by simp
    rw [e, List.take_succ_cons, List.take_succ_cons, cmpBytes, cmpBytes, cmpBytes_take s t]
    by_cases h1 : a.toNat < b.toNat
    · rw [if_pos h1, if_pos h1]; rfl
    · by_cases h2 : a.toNat > b.toNat
      · rw [if_neg h1, if_pos h2, if_neg h1, if_pos h2]; rfl
      · rw [if_neg h1, if_neg h2, if_neg h1, if_neg h2]
        simp [compare_nat]

theorem blobcmp_eq (s t : List Byte) : blobcmp s t = compare (s.map BitVec.toNat) (t.map BitVec.toNat) := by
  rw [← cmpBytes_eq, cmpBytes_take, blobcmp]
  have e : (if s.length < t.length then s.length else t.length) = min s.length t.length := by
    split <;> omega
  simp only [e]
  cases h : cmpBytes (s.take (min s.length t.length)) (t.take (min s.length t.length))
  · rfl
  · show _ = compare s.length t.length
    rw [compare_nat]
    split <;> split <;> simp <;> omega
  · rfl

theorem extcmp_eq (e f : Option (List Byte)) :
    (extcmp e f).getD .eq = compare (extChars e) (extChars f) ∧ extcmp e f ≠ some .eq := by
  cases e with
  | none => cases f with
    | none => exact ⟨rfl, by simp [extcmp]⟩
    | some f =>
      simp only [extcmp, extChars, chars]
      cases f.takeWhile (· != 0) <;> simp <;> rfl
  | some e => cases f with
    | none =>
      simp only [extcmp, extChars, chars]
      cases e.takeWhile (· != 0) <;> simp <;> rfl
    | some f =>
      simp only [extcmp, extChars, strcmp_eq]
      cases h : compare (chars e) (chars f) <;> simp

/-- what is needed of a database: only the word 0 is the null value, equal immediate values and
equal records have equal words, there are no doubles that are not numbers, and the fields of records
are words for values -/
structure Good (db : Db) : Prop where
  null : ∀ a b, db.val a = some .null → db.val b = some .null → a = b
  char : ∀ a b c, db.val a = some (.char c) → db.val b = some (.char c) → a = b
  fix : ∀ a b n, db.val a = some (.fix n) → db.val b = some (.fix n) → a = b
  date : ∀ a b n, db.val a = some (.date n) → db.val b = some (.date n) → a = b
  time : ∀ a b n, db.val a = some (.time n) → db.val b = some (.time n) → a = b
  var : ∀ a b n, db.val a = some (.var n) → db.val b = some (.var n) → a = b
  record : ∀ a b p, db.val a = some (.record p) → db.val b = some (.record p) → a = b
  nan : ∀ a x, db.val a = some (.dbl x) → isNaN x = false
  fields : ∀ a p, db.val a = some (.record p) → ∃ xs, db.fields p = some xs ∧ ∀ x ∈ xs, (db.val x).isSome

theorem keyCmp_ty {k l : Key} (h : k.ty ≠ l.ty) : keyCmp k l = gtOrLt (decide (k.ty > l.ty)) := by
  unfold keyCmp
  rw [compare_int, if_neg h]
  unfold gtOrLt
  split <;> rfl

theorem key_ty (db : Db) (b : Bool) (w : Word) : (db.key b w).ty = db.ty w := by
  unfold Db.key Db.ty
  cases db.val w with
  | none => rfl
  | some v => cases v <;> rfl

theorem keyCmp_num (t : Int) (i j : Int) :
    keyCmp ⟨t, [], [], i⟩ ⟨t, [], [], j⟩ = if i = j then .eq else gtOrLt (decide (i > j)) := by
  unfold keyCmp
  simp [compare_int]

theorem keyCmp_chars (t : Int) (e f s u : List Nat) (i : Int) :
    keyCmp ⟨t, e, s, i⟩ ⟨t, f, u, i⟩ = (compare e f).then (compare s u) := by
  unfold keyCmp
  simp only [compare_int, if_true]
  cases compare e f <;> cases compare s u <;> rfl

theorem cmpFields_eq (f : Word → Word → Option Ordering) (g : Word → Word → Ordering) [ReflCmp g]
    : ∀ (xs ys : List Word), xs.length = ys.length → (∀ x ∈ xs, ∀ y ∈ ys, x ≠ y → f x y = some (g x y)) →
    cmpFields f xs ys = some (List.compareLex g xs ys)
  | [], [], _, _ => rfl
  | x :: xs, y :: ys, hl, h => by
    have ih := cmpFields_eq f g xs ys (by simpa using hl)
      (fun a ha b hb => h a (List.mem_cons_of_mem _ ha) b (List.mem_cons_of_mem _ hb))
    rw [cmpFields, List.compareLex_cons_cons]
    by_cases e : x = y
    · subst e
      rw [if_pos rfl, ih, ReflCmp.compare_self (cmp := g)]; rfl
    · rw [if_neg e, h x List.mem_cons_self y List.mem_cons_self e]
      cases g x y
      · rfl
      · exact ih
      · rfl

/-- `cmpWith` agrees with an order on keys, then on fields -/
theorem cmpVal_eq {db : Db} (hg : Good db) {sub : Option (Word → Word → Option Ordering)} {deep : Bool}
    {fc : List Word → List Word → Ordering} (h0 : fc [] [] = .eq)
    (hr : ∀ a b p q, a ≠ b → db.val a = some (.record p) → db.val b = some (.record q) →
      cmpRec db sub p q = some ((keyCmp (db.key deep a) (db.key deep b)).then (fc (db.flds a) (db.flds b))))
    {a b : Word} (hab : a ≠ b) {v w : Val} (ha : db.val a = some v) (hb : db.val b = some w) (ht : v.ty = w.ty) :
    cmpVal db sub a b v w = some ((keyCmp (db.key deep a) (db.key deep b)).then (fc (db.flds a) (db.flds b))) := by
  cases v with
  | null => cases w <;> first | (exact absurd (hg.null a b ha hb) hab) | (simp [Val.ty] at ht)
  | record p =>
    cases w <;> first | (simp [Val.ty] at ht; done) | skip
    exact hr a b _ _ hab ha hb
  | int i =>
    cases w <;> first | (simp [Val.ty] at ht; done) | skip
    rename_i j
    show some (if i = j then .eq else gtOrLt (decide (i > j))) = _
    simp only [Db.key, Db.flds, ha, hb, keyCmp_num, h0, Ordering.then_eq]
  | dbl x =>
    cases w <;> first | (simp [Val.ty] at ht; done) | skip
    rename_i y
    show some (if dblEq x y then .eq else gtOrLt (dblGt x y)) = _
    simp only [Db.key, Db.flds, ha, hb, keyCmp_num, h0, Ordering.then_eq, dblEq, dblGt, hg.nan a x ha, hg.nan b y hb,
      Bool.not_false, Bool.true_and, beq_iff_eq]
  | str s l =>
    cases w <;> first | (simp [Val.ty] at ht; done) | skip
    rename_i t m
    show some (strcmp s t) = _
    simp only [Db.key, Db.flds, ha, hb, keyCmp_chars, h0, strcmp_eq, Ordering.then_eq]
    rfl
  | xml s e =>
    cases w <;> first | (simp [Val.ty] at ht; done) | skip
    rename_i t f
    show (match extcmp e f with
      | some r => some r
      | none => some (strcmp s t)) = _
    simp only [Db.key, Db.flds, ha, hb, keyCmp_chars, h0, strcmp_eq, Ordering.then_eq]
    obtain ⟨h1, h2⟩ := extcmp_eq e f
    rw [← h1]
    cases h : extcmp e f with
    | none => cases compare (chars s) (chars t) <;> rfl
    | some r => cases r <;> first | rfl | (exact absurd h h2)
  | uri s e =>
    cases w <;> first | (simp [Val.ty] at ht; done) | skip
    rename_i t f
    show (match extcmp e f with
      | some r => some r
      | none => some (strcmp s t)) = _
    simp only [Db.key, Db.flds, ha, hb, keyCmp_chars, h0, strcmp_eq, Ordering.then_eq]
    obtain ⟨h1, h2⟩ := extcmp_eq e f
    rw [← h1]
    cases h : extcmp e f with
    | none => cases compare (chars s) (chars t) <;> rfl
    | some r => cases r <;> first | rfl | (exact absurd h h2)
  | blob s =>
    cases w <;> first | (simp [Val.ty] at ht; done) | skip
    rename_i t
    show some (blobcmp s t) = _
    simp only [Db.key, Db.flds, ha, hb, keyCmp_chars, h0, blobcmp_eq, Ordering.then_eq]
    rfl
  | char c =>
    cases w <;> first | (simp [Val.ty] at ht; done) | skip
    rename_i d
    show some (strcmp [c] [d]) = _
    simp only [Db.key, Db.flds, ha, hb, keyCmp_chars, h0, strcmp_eq, Ordering.then_eq]
    rfl
  | fix m =>
    cases w <;> first | (simp [Val.ty] at ht; done) | skip
    rename_i n
    have hn : m ≠ n := fun e => hab (hg.fix a b n (e ▸ ha) hb)
    show some (gtOrLt (decide (m > n))) = _
    simp only [Db.key, Db.flds, ha, hb, keyCmp_num, h0, if_neg hn, Ordering.then_eq]
  | date m =>
    cases w <;> first | (simp [Val.ty] at ht; done) | skip
    rename_i n
    have hn : m ≠ n := fun e => hab (hg.date a b n (e ▸ ha) hb)
    show some (gtOrLt (decide (m > n))) = _
    simp only [Db.key, Db.flds, ha, hb, keyCmp_num, h0, if_neg hn, Ordering.then_eq]
  | time m =>
    cases w <;> first | (simp [Val.ty] at ht; done) | skip
    rename_i n
    have hn : m ≠ n := fun e => hab (hg.time a b n (e ▸ ha) hb)
    show some (gtOrLt (decide (m > n))) = _
    simp only [Db.key, Db.flds, ha, hb, keyCmp_num, h0, if_neg hn, Ordering.then_eq]
  | anon =>
    cases w <;> first | (simp [Val.ty] at ht; done) | skip
    show some (gtOrLt (decide (a > b))) = _
    simp only [Db.key, Db.flds, ha, hb, keyCmp_num, h0, if_neg hab, Ordering.then_eq]
  | var m =>
    cases w <;> first | (simp [Val.ty] at ht; done) | skip
    rename_i n
    have hn : m ≠ n := fun e => hab (hg.var a b n (e ▸ ha) hb)
    show some (gtOrLt (decide (m > n))) = _
    simp only [Db.key, Db.flds, ha, hb, keyCmp_num, h0, if_neg hn, Ordering.then_eq]

theorem cmpWith_eq {db : Db} (hg : Good db) {sub : Option (Word → Word → Option Ordering)} {deep : Bool}
    {fc : List Word → List Word → Ordering} (h0 : fc [] [] = .eq)
    (hr : ∀ a b p q, a ≠ b → db.val a = some (.record p) → db.val b = some (.record q) →
      cmpRec db sub p q = some ((keyCmp (db.key deep a) (db.key deep b)).then (fc (db.flds a) (db.flds b))))
    {a b : Word} (hab : a ≠ b) (hv : (db.val a).isSome ∨ (db.val b).isSome) :
    cmpWith db sub a b = some ((keyCmp (db.key deep a) (db.key deep b)).then (fc (db.flds a) (db.flds b))) := by
  unfold cmpWith
  by_cases ht : db.ty a = db.ty b
  · rw [if_pos ht]
    have tyneg : ∀ v : Val, v.ty ≠ -1 := by intro v; cases v <;> simp [Val.ty]
    cases ha : db.val a with
    | none =>
      cases hb : db.val b with
      | none => simp [ha, hb] at hv
      | some w =>
        simp only [Db.ty, ha, hb] at ht
        exact absurd ht.symm (tyneg w)
    | some v =>
      cases hb : db.val b with
      | none =>
        simp only [Db.ty, ha, hb] at ht
        exact absurd ht (tyneg v)
      | some w =>
        simp only [Db.ty, ha, hb] at ht
        exact cmpVal_eq hg h0 hr hab ha hb ht
  · have hk := ht
    rw [← key_ty db deep a, ← key_ty db deep b] at hk
    rw [if_neg ht, keyCmp_ty hk, key_ty, key_ty]
    unfold gtOrLt
    split <;> rfl

/-- **the model computes `ocmp`** -/
theorem wgCompare_eq {db : Db} (hg : Good db) : ∀ (d : Nat) (a b : Word), a ≠ b →
    ((db.val a).isSome ∨ (db.val b).isSome) → wgCompare db d a b = some (ocmp db d a b)
  | 0, a, b, hab, hv => by
    have h := cmpWith_eq hg (sub := none) (deep := false) (fc := fun _ _ => .eq) rfl
      (fun a b p q hab ha hb => by
        have hn : (p : Int) ≠ (q : Int) := fun e => hab (hg.record a b q (by rw [ha]; congr; omega) hb)
        simp only [cmpRec, Db.key, ha, hb, Bool.false_eq_true, if_false, keyCmp_num, if_neg hn]
        have : decide ((p : Int) > (q : Int)) = decide (p > q) := by simp
        rw [this]
        cases gtOrLt _ <;> rfl) hab hv
    unfold wgCompare ocmp
    rw [h]
    cases keyCmp _ _ <;> rfl
  | d + 1, a, b, hab, hv => by
    unfold wgCompare ocmp
    refine cmpWith_eq hg (sub := some (wgCompare db d)) (deep := true) (fc := List.compareLex (ocmp db d)) rfl
      (fun a b p q hab ha hb => ?_) hab hv
    obtain ⟨xs, hx, hxv⟩ := hg.fields a p ha
    obtain ⟨ys, hy, hyv⟩ := hg.fields b q hb
    simp only [cmpRec, Db.key, Db.flds, ha, hb, if_true, keyCmp_num, hx, hy, Option.getD_some]
    by_cases hl : xs.length = ys.length
    · rw [if_neg (by simp [hl]), if_pos (by simp [hl])]
      exact cmpFields_eq _ _ xs ys hl (fun x hx' y _ hxy => wgCompare_eq hg d x y hxy (Or.inl (hxv x hx')))
    · have hl' : (xs.length : Int) ≠ (ys.length : Int) := by omega
      rw [if_pos hl, if_neg hl']
      have : decide ((xs.length : Int) > (ys.length : Int)) = decide (xs.length > ys.length) := by simp
      rw [this]
      unfold gtOrLt
      split <;> rfl

theorem WG_COMPARE_eq {db : Db} (hg : Good db) (a b : Word) (hv : (db.val a).isSome ∨ (db.val b).isSome) :
    WG_COMPARE db a b = some (ocmp db recDepth a b) := by
  unfold WG_COMPARE
  by_cases h : a = b
  · subst h
    rw [if_pos rfl, ocmp_self]
  · rw [if_neg h, wgCompare_eq hg _ _ _ h hv]

end Gkc.Compare
