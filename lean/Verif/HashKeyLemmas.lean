import Verif.HashIndexLemmas
/-
Which values have the same key.
-/
namespace Gkc.Hx

/-- Values whose bytes say what they are: integers that are C ints, strings without a language; no string has a zero byte, and a URI or XML literal
does not begin with one of the bytes 1 to 14. -/
def Plain : Val → Prop
  | .int i => -2 ^ 31 ≤ i ∧ i < 2 ^ 31
  | .str s l => 0 ∉ s ∧ l = none
  | .uri s p => 0 ∉ s ∧ (∀ q ∈ p, 0 ∉ q) ∧ ∀ b ∈ s.head?, 15 ≤ b.toNat
  | .xml s p => 0 ∉ s ∧ (∀ q ∈ p, 0 ∉ q) ∧ ∀ b ∈ s.head?, 15 ≤ b.toNat
  | .blob _ => False
  | .anon _ => False
  | _ => True

theorem le_length (n x : Nat) : (le n x).length = n := by
  induction n generalizing x with
  | zero => rfl
  | succ n ih => simp [le, ih]

theorem le_inj {n x y : Nat} (hx : x < 256 ^ n) (hy : y < 256 ^ n) (h : le n x = le n y) : x = y := by
  induction n generalizing x y with
  | zero => simp at hx hy; omega
  | succ n ih =>
    simp only [le, List.cons.injEq] at h
    obtain ⟨h1, h2⟩ := h
    have e1 : x % 256 = y % 256 := by
      have := congrArg UInt8.toNat h1
      simpa using this
    rw [Nat.pow_succ] at hx hy
    have e2 := ih (Nat.div_lt_of_lt_mul (by rw [Nat.mul_comm]; exact hx)) (Nat.div_lt_of_lt_mul (by rw [Nat.mul_comm]; exact hy)) h2
    omega

/-- what follows a value in a key: nothing, or a zero and the type of the next value -/
def Rest (t : List UInt8) : Prop := t = [] ∨ ∃ ty u, t = 0 :: ty :: u ∧ ty ≠ 0 ∧ ty.toNat < 15

theorem text_inj {a b t u : List UInt8} (ha : 0 ∉ a) (hb : 0 ∉ b) (ht : ∀ x ∈ t.head?, x = 0) (hu : ∀ x ∈ u.head?, x = 0)
    (h : a ++ t = b ++ u) : a = b ∧ t = u := by
  induction a generalizing b with
  | nil =>
    cases b with
    | nil => exact ⟨rfl, h⟩
    | cons y b =>
      simp only [List.nil_append] at h
      subst h
      exact absurd (ht y (by simp)) (fun e => hb (by simp [e]))
  | cons x a ih =>
    cases b with
    | nil =>
      simp only [List.nil_append] at h
      subst h
      exact absurd (hu x (by simp)) (fun e => ha (by simp [e]))
    | cons y b =>
      simp only [List.cons_append, List.cons.injEq] at h
      obtain ⟨rfl, h⟩ := h
      obtain ⟨rfl, rfl⟩ := ih (fun m => ha (List.mem_cons_of_mem _ m)) (fun m => hb (List.mem_cons_of_mem _ m)) h
      exact ⟨rfl, rfl⟩

theorem Rest.head {t : List UInt8} (h : Rest t) : ∀ x ∈ t.head?, x = 0 := by
  rcases h with rfl | ⟨ty, u, rfl, -, -⟩ <;> simp

theorem mixed {s p s' t u : List UInt8} (hs : 0 ∉ s) (hp : 0 ∉ p) (hb : ∀ b ∈ s'.head?, 15 ≤ b.toNat)
    (ht : Rest t) (hu : Rest u) (h : s ++ t = p ++ 0 :: (s' ++ u)) : False := by
  obtain ⟨-, h2⟩ := text_inj hs hp ht.head (by simp) h
  rcases ht with rfl | ⟨ty, w, rfl, h0, h15⟩
  · simp at h2
  · simp only [List.cons.injEq, true_and] at h2
    cases s' with
    | cons b s' =>
      simp only [List.cons_append, List.cons.injEq] at h2
      have := hb b (by simp)
      rw [← h2.1] at this; omega
    | nil =>
      simp only [List.nil_append] at h2
      rw [← h2] at hu
      have := hu.head ty (by simp)
      exact h0 this

theorem concat_inj {s s' : List UInt8} {p p' : Option (List UInt8)} {t u : List UInt8} (hs : 0 ∉ s) (hs' : 0 ∉ s') (hp : ∀ q ∈ p, 0 ∉ q)
    (hp' : ∀ q ∈ p', 0 ∉ q) (hb : ∀ b ∈ s.head?, 15 ≤ b.toNat) (hb' : ∀ b ∈ s'.head?, 15 ≤ b.toNat)
    (ht : Rest t) (hu : Rest u) (h : concat s p ++ t = concat s' p' ++ u) : s = s' ∧ p = p' ∧ t = u := by
  cases p with
  | none =>
    cases p' with
    | none =>
      obtain ⟨h1, h2⟩ := text_inj hs hs' ht.head hu.head h
      exact ⟨h1, rfl, h2⟩
    | some q => exact (mixed hs (hp' q rfl) hb' ht hu (by simpa [concat] using h)).elim
  | some q =>
    cases p' with
    | none => exact (mixed hs' (hp q rfl) hb hu ht (by simpa [concat] using h.symm)).elim
    | some q' =>
      simp only [concat, List.append_assoc, List.cons_append] at h
      obtain ⟨rfl, h2⟩ := text_inj (hp q rfl) (hp' q' rfl) (by simp) (by simp) h
      simp only [List.cons.injEq, true_and] at h2
      obtain ⟨h3, h4⟩ := text_inj hs hs' ht.head hu.head h2
      exact ⟨h3, rfl, h4⟩

theorem num_inj {n x y : Nat} {t u : List UInt8} (hx : x < 256 ^ n) (hy : y < 256 ^ n) (h : le n x ++ t = le n y ++ u) : x = y ∧ t = u := by
  obtain ⟨h1, h2⟩ := List.append_inj h (by simp [le_length])
  exact ⟨le_inj hx hy h1, h2⟩

theorem b64 (b : BitVec 64) : b.toNat < 256 ^ 8 := b.isLt
theorem b32 (b : BitVec 32) : b.toNat < 256 ^ 4 := b.isLt

theorem fld_inj {v w : Val} {t u : List UInt8} (hv : Plain v) (hw : Plain w) (ht : Rest t) (hu : Rest u)
    (h : fld v ++ t = fld w ++ u) : v = w ∧ t = u := by
  cases v <;> cases w <;> simp only [Plain] at hv hw <;> simp only [fld, field, Option.getD_some, List.cons_append, List.cons.injEq] at h <;>
    first
    | exact absurd h.1 (by decide)
    | skip
  case null.null => exact ⟨rfl, (num_inj (by decide) (by decide) h.2).2⟩
  case record.record a b => obtain ⟨h1, h2⟩ := num_inj (b64 a) (b64 b) h.2; exact ⟨by rw [BitVec.eq_of_toNat_eq h1], h2⟩
  case int.int a b =>
    obtain ⟨h1, h2⟩ := num_inj (n := 4) (by omega) (by omega) h.2
    exact ⟨by rw [show a = b by omega], h2⟩
  case double.double a b => obtain ⟨h1, h2⟩ := num_inj (b64 a) (b64 b) h.2; exact ⟨by rw [BitVec.eq_of_toNat_eq h1], h2⟩
  case fix.fix a b => obtain ⟨h1, h2⟩ := num_inj (b64 a) (b64 b) h.2; exact ⟨by rw [BitVec.eq_of_toNat_eq h1], h2⟩
  case str.str s l s' l' =>
    obtain ⟨h1, h2⟩ := text_inj hv.1 hw.1 ht.head hu.head h.2
    exact ⟨by rw [h1, hv.2, hw.2], h2⟩
  case uri.uri => obtain ⟨h1, h2, h3⟩ := concat_inj hv.1 hw.1 hv.2.1 hw.2.1 hv.2.2 hw.2.2 ht hu h.2; exact ⟨by rw [h1, h2], h3⟩
  case xml.xml => obtain ⟨h1, h2, h3⟩ := concat_inj hv.1 hw.1 hv.2.1 hw.2.1 hv.2.2 hw.2.2 ht hu h.2; exact ⟨by rw [h1, h2], h3⟩
  case char.char a b => obtain ⟨h1, h2⟩ := num_inj (b32 a) (b32 b) h.2; exact ⟨by rw [BitVec.eq_of_toNat_eq h1], h2⟩
  case date.date a b => obtain ⟨h1, h2⟩ := num_inj (b32 a) (b32 b) h.2; exact ⟨by rw [BitVec.eq_of_toNat_eq h1], h2⟩
  case time.time a b => obtain ⟨h1, h2⟩ := num_inj (b32 a) (b32 b) h.2; exact ⟨by rw [BitVec.eq_of_toNat_eq h1], h2⟩
  case var.var a b => obtain ⟨h1, h2⟩ := num_inj (b32 a) (b32 b) h.2; exact ⟨by rw [BitVec.eq_of_toNat_eq h1], h2⟩

/-- the part of a key that comes from further values -/
def tailKey : List Val → List UInt8
  | [] => []
  | v :: vs => 0 :: (fld v ++ tailKey vs)

theorem fld_type {v : Val} (hv : Plain v) : ∃ ty u, fld v = ty :: u ∧ ty ≠ 0 ∧ ty.toNat < 15 := by
  cases v <;> simp only [Plain] at hv <;> exact ⟨_, _, rfl, by decide, by decide⟩

theorem key_eq (vs : List Val) (pre : List UInt8) (hp : pre ≠ []) : key vs pre = pre ++ tailKey vs := by
  induction vs generalizing pre with
  | nil => simp [key, tailKey]
  | cons v vs ih =>
    have hj : join pre (fld v) = pre ++ 0 :: fld v := by simp [join, hp]
    rw [key, hj, ih _ (by simp)]
    simp [tailKey]

theorem rest_tail {vs : List Val} (hv : ∀ v ∈ vs, Plain v) : Rest (tailKey vs) := by
  cases vs with
  | nil => exact .inl rfl
  | cons v vs =>
    obtain ⟨ty, u, h1, h2, h3⟩ := fld_type (hv v (List.mem_cons_self ..))
    exact .inr ⟨ty, u ++ tailKey vs, by simp [tailKey, h1], h2, h3⟩

theorem tail_inj : ∀ {vs ws : List Val}, (∀ v ∈ vs, Plain v) → (∀ v ∈ ws, Plain v) → tailKey vs = tailKey ws → vs = ws
  | [], [], _, _, _ => rfl
  | [], w :: ws, _, _, h => by simp [tailKey] at h
  | v :: vs, [], _, _, h => by simp [tailKey] at h
  | v :: vs, w :: ws, hv, hw, h => by
    simp only [tailKey, List.cons.injEq, true_and] at h
    have hv' : ∀ x ∈ vs, Plain x := fun x hx => hv x (List.mem_cons_of_mem _ hx)
    have hw' : ∀ x ∈ ws, Plain x := fun x hx => hw x (List.mem_cons_of_mem _ hx)
    obtain ⟨rfl, h2⟩ := fld_inj (hv v (List.mem_cons_self ..)) (hw w (List.mem_cons_self ..)) (rest_tail hv') (rest_tail hw') h
    rw [tail_inj hv' hw' h2]

theorem key_inj {vs ws : List Val} (hv : ∀ v ∈ vs, Plain v) (hw : ∀ v ∈ ws, Plain v) (h : key vs [] = key ws []) : vs = ws := by
  have nonempty : ∀ {v : Val}, Plain v → fld v ≠ [] := by
    intro v hv e
    obtain ⟨ty, u, h1, -, -⟩ := fld_type hv
    rw [h1] at e; cases e
  have first : ∀ {v : Val} {vs : List Val}, Plain v → tailKey (v :: vs) = 0 :: key (v :: vs) [] := by
    intro v vs hv
    have : join [] (fld v) = fld v := by simp [join]
    rw [key, this, key_eq _ _ (nonempty hv), tailKey]
  cases vs with
  | nil =>
    cases ws with
    | nil => rfl
    | cons w ws =>
      have := first (vs := ws) (hw w (List.mem_cons_self ..))
      rw [← h] at this
      simp [key, tailKey, nonempty (hw w (List.mem_cons_self ..))] at this
  | cons v vs =>
    cases ws with
    | nil =>
      have := first (vs := vs) (hv v (List.mem_cons_self ..))
      rw [h] at this
      simp [key, tailKey, nonempty (hv v (List.mem_cons_self ..))] at this
    | cons w ws =>
      refine tail_inj hv hw ?_
      rw [first (hv v (List.mem_cons_self ..)), first (hw w (List.mem_cons_self ..)), h]

theorem plain_hashable {v : Val} (h : Plain v) : (field v).isSome := by
  cases v <;> simp only [Plain] at h <;> rfl

end Gkc.Hx
