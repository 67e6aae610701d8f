import Verif.Vec
import Verif.UnifyLemmas
/-
C25: growable vectors and term hash tables keep everything that was pushed.
-/
namespace Gkc.Props
open Gkc.Vec

/-- the largest position for which doubling cannot overflow an `int` -/
def maxPos : Nat := 1073741824

theorem growLen_spec {i : Nat} (hi : i ≤ maxPos) : ∀ (k n : Nat), i - n ≤ k → 1 ≤ n → n ≤ 2147483647 →
    ∃ m, growLen i n = some m ∧ i ≤ m ∧ n ≤ m
  | 0, n, hk, h1, h2 => by
    rw [growLen, if_neg (by omega), if_neg (by omega), if_neg (by omega)]
    exact ⟨n, rfl, by omega, by omega⟩
  | k + 1, n, hk, h1, h2 => by
    rw [growLen, if_neg (by omega), if_neg (by omega)]
    split
    · have : maxPos = 1073741824 := rfl
      obtain ⟨m, e, a, b⟩ := growLen_spec hi k (n * 2) (by omega) (by omega) (by omega)
      exact ⟨m, e, a, by omega⟩
    · exact ⟨n, rfl, by omega, by omega⟩

/-- a well-formed vector of usable length `len` -/
structure VOk (v : List Int) (len : Nat) : Prop where
  head : v[0]? = some (len : Int)
  lo : len + 1 ≤ v.length
  hi : v.length ≤ len + 2

theorem vecStore_spec (junk : Nat → Int) {v : List Int} {len : Nat} (hv : VOk v len) {i : Nat} (h1 : 1 ≤ i)
    (hi : i ≤ maxPos) (e : Int) : ∃ v' len', vecStore junk v i e = some v' ∧ VOk v' len' ∧ v'[i]? = some e ∧
      i ≤ len' ∧ len ≤ len' ∧ v.length ≤ v'.length ∧ ∀ j, 1 ≤ j → j ≠ i → j < v.length → v'[j]? = v[j]? := by
  have h0 := hv.lo
  have h0' := hv.hi
  simp only [vecStore, rd, hv.head]
  by_cases hle : i ≤ len
  · rw [if_pos (by omega), wr, if_pos (by omega)]
    refine ⟨_, len, rfl, ⟨?_, by simp; omega, by simp; omega⟩, ?_, hle, Nat.le_refl _, by simp, ?_⟩
    · rw [List.getElem?_set_ne (by omega)]; exact hv.head
    · rw [List.getElem?_set_self (by omega)]
    · intro j hj hne _
      rw [List.getElem?_set_ne (by omega)]
  · rw [if_neg (by omega)]
    simp only [vecRealloc, rd, hv.head]
    rw [if_neg (by omega)]
    have hm : maxPos = 1073741824 := rfl
    obtain ⟨m, em, hm1, hm2⟩ := growLen_spec hi i (if (len : Int) ≤ 0 then 2 else (len : Int).toNat * 2)
      (by omega) (by split <;> omega) (by split <;> omega)
    rw [em]
    have hml : len + 1 ≤ m := by split at hm2 <;> omega
    have hm2' : 2 ≤ m := by split at hm2 <;> omega
    have htake : v.take (m + 1) = v := List.take_of_length_le (by omega)
    simp only [wr, htake]
    have hlen : (v ++ (List.range (m + 1 - v.length)).map junk).length = m + 1 := by
      simp; omega
    rw [if_pos (by rw [hlen]; omega)]
    simp only [Option.bind_some]
    rw [if_pos (by rw [List.length_set, hlen]; omega)]
    refine ⟨_, m, rfl, ⟨?_, ?_, ?_⟩, ?_, hm1, by omega, ?_, ?_⟩
    · rw [List.getElem?_set_ne (by omega), List.getElem?_set_self (by rw [hlen]; omega)]
    · rw [List.length_set, List.length_set, hlen]; omega
    · rw [List.length_set, List.length_set, hlen]; omega
    · rw [List.getElem?_set_self (by rw [List.length_set, hlen]; omega)]
    · rw [List.length_set, List.length_set, hlen]; omega
    · intro j hj hne hjv
      rw [List.getElem?_set_ne (by omega), List.getElem?_set_ne (by omega), List.getElem?_append_left hjv]

/-! ### Vectors -/

/-- the reference: the values last written, by position -/
def vput (f : Nat → Option Int) (i : Nat) (e : Int) : Nat → Option Int := fun j => if j = i then some e else f j

/-- a sequence of stores -/
def runVec (junk : Nat → Int) : List Int → List (Nat × Int) → Option (List Int)
  | v, [] => some v
  | v, (i, e) :: os => (vecStore junk v i e).bind fun v => runVec junk v os

/-- the reference after the stores -/
def vputAll (f : Nat → Option Int) : List (Nat × Int) → Nat → Option Int
  | [] => f
  | (i, e) :: os => vputAll (vput f i e) os

theorem runVec_spec (junk : Nat → Int) : ∀ (os : List (Nat × Int)) {v : List Int} {len : Nat} {f : Nat → Option Int},
    VOk v len → (∀ o ∈ os, 1 ≤ o.1 ∧ o.1 ≤ maxPos) → (∀ j e, f j = some e → 1 ≤ j ∧ v[j]? = some e) →
    ∃ v' len', runVec junk v os = some v' ∧ VOk v' len' ∧ len ≤ len' ∧ (∀ o ∈ os, o.1 ≤ len') ∧
      ∀ j e, vputAll f os j = some e → 1 ≤ j ∧ v'[j]? = some e
  | [], v, len, f, hv, _, hf => ⟨v, len, rfl, hv, Nat.le_refl _, by simp, hf⟩
  | (i, e) :: os, v, len, f, hv, ho, hf => by
    obtain ⟨h1, h2⟩ := ho (i, e) List.mem_cons_self
    obtain ⟨v1, len1, e1, hv1, hs, hl1, hl2, hl3, hk⟩ := vecStore_spec junk hv h1 h2 e
    obtain ⟨v', len', e2, hv', hl, hall, hf'⟩ := runVec_spec junk os hv1
      (fun o h => ho o (List.mem_cons_of_mem _ h)) (f := vput f i e) (by
        intro j x hx
        simp only [vput] at hx
        split at hx
        · rename_i hj
          injection hx with hx
          subst hj; subst hx
          exact ⟨h1, hs⟩
        · rename_i hj
          obtain ⟨a, b⟩ := hf j x hx
          refine ⟨a, ?_⟩
          rw [hk j a hj (by
            have := List.getElem?_eq_some_iff.1 b
            exact this.1)]
          exact b)
    refine ⟨v', len', by simp only [runVec, e1, Option.bind_some]; exact e2, hv', by omega, ?_, hf'⟩
    intro o h
    rcases List.mem_cons.1 h with rfl | h
    · exact Nat.le_trans hl1 hl
    · exact hall o h

/-- C25.  Any sequence of stores at positions 1.. into a new vector of any length succeeds without
an access outside the allocated words; every position then holds what was last stored there, other
positions up to the initial length hold 0, and the length word covers all used positions. -/
theorem C25_vector_keeps (junk : Nat → Int) (len : Nat) (os : List (Nat × Int))
    (ho : ∀ o ∈ os, 1 ≤ o.1 ∧ o.1 ≤ maxPos) : ∃ v, runVec junk (vecNew len) os = some v ∧
      (∃ n : Nat, v[0]? = some (n : Int) ∧ n < v.length ∧ len ≤ n ∧ ∀ o ∈ os, o.1 ≤ n) ∧
      ∀ j e, 1 ≤ j → j ≤ len ∨ (∃ x, (j, x) ∈ os) →
        vputAll (fun j => if 1 ≤ j ∧ j ≤ len then some 0 else none) os j = some e → v[j]? = some e := by
  have hv : VOk (vecNew len) len := ⟨rfl, by simp [vecNew], by simp [vecNew]⟩
  obtain ⟨v, n, e, hvn, h1, h2, h3⟩ := runVec_spec junk os hv ho
    (f := fun j => if 1 ≤ j ∧ j ≤ len then some 0 else none) (by
      intro j x hx
      split at hx
      · rename_i hj
        injection hx with hx
        subst hx
        refine ⟨hj.1, ?_⟩
        obtain ⟨j, rfl⟩ : ∃ k, j = k + 1 := ⟨j - 1, by omega⟩
        simp only [vecNew, List.getElem?_cons_succ]
        rw [List.getElem?_replicate, if_pos (by omega)]
      · cases hx)
  exact ⟨v, e, ⟨n, hvn.head, by have := hvn.lo; omega, h1, h2⟩, fun j x _ _ h => (h3 j x h).2⟩

/-! ### Vectors with a next free position -/

/-- the vector represents next free position `nx` and the values `f` -/
structure CRep (v : List Int) (nx : Nat) (f : Nat → Option Int) : Prop where
  ok : ∃ len, VOk v len
  two : 2 ≤ v.length
  next : v[1]? = some (nx : Int)
  vals : ∀ j e, f j = some e → 2 ≤ j ∧ v[j]? = some e

theorem cvecStore_spec (junk : Nat → Int) {v : List Int} {nx : Nat} {f : Nat → Option Int} (hv : CRep v nx f)
    {i : Nat} (h1 : 2 ≤ i) (hi : i ≤ maxPos) (e : Int) : ∃ v', cvecStore junk v i e = some v' ∧
      CRep v' (if nx ≤ i then i + 1 else nx) (vput f i e) ∧ (∃ len : Nat, v'[0]? = some (len : Int) ∧ i ≤ len ∧ ∀ l : Nat, v[0]? = some (l : Int) → l ≤ len) := by
  obtain ⟨len, hok⟩ := hv.ok
  obtain ⟨v1, len1, e1, hv1, hs, hl1, hl2, hl3, hk⟩ := vecStore_spec junk hok (by omega) hi e
  have hn1 : v1[1]? = some (nx : Int) := by
    rw [hk 1 (by omega) (by omega) (by have := hv.two; omega)]; exact hv.next
  have hlen : ∀ l : Nat, v[0]? = some (l : Int) → l ≤ len1 := by
    intro l hl
    rw [hok.head] at hl
    injection hl with hl
    omega
  have hvals : ∀ j x, vput f i e j = some x → 2 ≤ j ∧ v1[j]? = some x := by
    intro j x hx
    simp only [vput] at hx
    split at hx
    · rename_i hj
      injection hx with hx
      subst hj; subst hx
      exact ⟨h1, hs⟩
    · rename_i hj
      obtain ⟨a, b⟩ := hv.vals j x hx
      refine ⟨a, ?_⟩
      rw [hk j (by omega) hj (List.getElem?_eq_some_iff.1 b).1]
      exact b
  have htwo : 2 ≤ v1.length := Nat.le_trans hv.two hl3
  simp only [cvecStore, e1, Option.bind_some, rd, hn1]
  by_cases hle : nx ≤ i
  · rw [if_pos (by omega), wr, if_pos (by omega), if_pos hle]
    refine ⟨_, rfl, ⟨⟨len1, ?_, by simp; have := hv1.lo; omega, by simp; have := hv1.hi; omega⟩, by simp; omega, ?_, ?_⟩, len1, ?_, hl1, hlen⟩
    · rw [List.getElem?_set_ne (by omega)]; exact hv1.head
    · rw [List.getElem?_set_self (by omega)]; simp
    · intro j x hx
      obtain ⟨a, b⟩ := hvals j x hx
      exact ⟨a, by rw [List.getElem?_set_ne (by omega)]; exact b⟩
    · rw [List.getElem?_set_ne (by omega)]; exact hv1.head
  · rw [if_neg (by omega), if_neg hle]
    exact ⟨v1, rfl, ⟨⟨len1, hv1⟩, htwo, hn1, hvals⟩, len1, hv1.head, hl1, hlen⟩

/-- an operation on a vector with a next free position -/
inductive CvOp
  | store (i : Nat) (e : Int)
  | push (e : Int)

/-- running operations -/
def runCvec (junk : Nat → Int) : List Int → List CvOp → Option (List Int)
  | v, [] => some v
  | v, .store i e :: os => (cvecStore junk v i e).bind fun v => runCvec junk v os
  | v, .push e :: os => (cvecPush junk v e).bind fun v => runCvec junk v os

/-- the reference: next free position and values -/
def refCvec : Nat → (Nat → Option Int) → List CvOp → Nat × (Nat → Option Int)
  | nx, f, [] => (nx, f)
  | nx, f, .store i e :: os => refCvec (if nx ≤ i then i + 1 else nx) (vput f i e) os
  | nx, f, .push e :: os => refCvec (nx + 1) (vput f nx e) os

/-- the positions used stay small enough -/
def CvSmall : Nat → List CvOp → Prop
  | nx, [] => nx ≤ maxPos + 1
  | nx, .store i _ :: os => 2 ≤ i ∧ i ≤ maxPos ∧ CvSmall (if nx ≤ i then i + 1 else nx) os
  | nx, .push _ :: os => nx ≤ maxPos ∧ CvSmall (nx + 1) os

theorem cvecPush_spec (junk : Nat → Int) {v : List Int} {nx : Nat} {f : Nat → Option Int} (hv : CRep v nx f)
    (h2 : 2 ≤ nx) (hi : nx ≤ maxPos) (e : Int) : ∃ v', cvecPush junk v e = some v' ∧ CRep v' (nx + 1) (vput f nx e) ∧
      (∃ len : Nat, v'[0]? = some (len : Int) ∧ nx ≤ len ∧ ∀ l : Nat, v[0]? = some (l : Int) → l ≤ len) := by
  obtain ⟨v', e1, h1, h3⟩ := cvecStore_spec junk hv h2 hi e
  rw [if_pos (Nat.le_refl _)] at h1
  refine ⟨v', ?_, h1, h3⟩
  simp only [cvecPush, rd, hv.next]
  exact e1

theorem runCvec_spec (junk : Nat → Int) : ∀ (os : List CvOp) {v : List Int} {nx : Nat} {f : Nat → Option Int},
    CRep v nx f → 2 ≤ nx → CvSmall nx os →
    ∃ v', runCvec junk v os = some v' ∧ CRep v' (refCvec nx f os).1 (refCvec nx f os).2
  | [], v, nx, f, hv, _, _ => ⟨v, rfl, hv⟩
  | .store i e :: os, v, nx, f, hv, h2, hs => by
    obtain ⟨a, b, c⟩ := hs
    obtain ⟨v1, e1, h1, _⟩ := cvecStore_spec junk hv a b e
    obtain ⟨v', e2, h3⟩ := runCvec_spec junk os h1 (by split <;> omega) c
    exact ⟨v', by simp only [runCvec, e1, Option.bind_some]; exact e2, h3⟩
  | .push e :: os, v, nx, f, hv, h2, hs => by
    obtain ⟨a, b⟩ := hs
    obtain ⟨v1, e1, h1, _⟩ := cvecPush_spec junk hv h2 a e
    obtain ⟨v', e2, h3⟩ := runCvec_spec junk os h1 (by omega) b
    exact ⟨v', by simp only [runCvec, e1, Option.bind_some]; exact e2, h3⟩

theorem cvecNew_rep (junk : Nat → Int) (len : Nat) : CRep (cvecNew junk len) 2 (fun _ => none) :=
  ⟨⟨len, rfl, by simp [cvecNew], by simp [cvecNew]⟩, by simp [cvecNew], rfl, fun _ _ h => by cases h⟩

/-- C25.  Any sequence of stores (positions 2..) and pushes on a new vector with a next free
position behaves like the reference: no access outside the allocated words, the next free position
is one more than the largest used one, pushes append, every position holds what was last written
there. -/
theorem C25_cvec_refines (junk : Nat → Int) (len : Nat) (os : List CvOp) (hs : CvSmall 2 os) :
    ∃ v, runCvec junk (cvecNew junk len) os = some v ∧ v[1]? = some ((refCvec 2 (fun _ => none) os).1 : Int) ∧
      ∀ j e, (refCvec 2 (fun _ => none) os).2 j = some e → v[j]? = some e := by
  obtain ⟨v, e, h⟩ := runCvec_spec junk os (cvecNew_rep junk len) (Nat.le_refl _) hs
  exact ⟨v, e, h.next, fun j x hx => (h.vals j x hx).2⟩

theorem refCvec_push (es : List Int) : ∀ (nx : Nat) (f : Nat → Option Int),
    (refCvec nx f (es.map .push)).1 = nx + es.length ∧
    (∀ j, j < nx → (refCvec nx f (es.map .push)).2 j = f j) ∧
    ∀ k e, es[k]? = some e → (refCvec nx f (es.map .push)).2 (nx + k) = some e := by
  induction es with
  | nil => intro nx f; simp [refCvec]
  | cons a es ih =>
    intro nx f
    obtain ⟨h1, h2, h3⟩ := ih (nx + 1) (vput f nx a)
    simp only [List.map_cons, refCvec, List.length_cons]
    refine ⟨by omega, ?_, ?_⟩
    · intro j hj
      rw [h2 j (by omega), vput, if_neg (by omega)]
    · intro k e hk
      cases k with
      | zero =>
        simp only [List.getElem?_cons_zero, Option.some.injEq] at hk
        subst hk
        rw [h2 (nx + 0) (by omega), vput, if_pos (by omega)]
      | succ k =>
        rw [show nx + (k + 1) = nx + 1 + k by omega]
        exact h3 k e (by simpa using hk)

/-- C25.  Pushing any list reads back as that list. -/
theorem C25_pushed_reads_back (junk : Nat → Int) (len : Nat) (es : List Int) (hs : es.length < maxPos) :
    ∃ v, runCvec junk (cvecNew junk len) (es.map .push) = some v ∧ v[1]? = some ((es.length + 2 : Nat) : Int) ∧
      ∀ k e, es[k]? = some e → v[k + 2]? = some e := by
  have hsmall : ∀ (es : List Int) (nx : Nat), nx + es.length ≤ maxPos + 1 → CvSmall nx (es.map .push) := by
    intro es
    induction es with
    | nil => intro nx h; exact h
    | cons a es ih =>
      intro nx h
      simp only [List.length_cons] at h
      exact ⟨by omega, ih _ (by omega)⟩
  obtain ⟨v, e, h1, h2⟩ := C25_cvec_refines junk len _ (hsmall es 2 (by omega))
  obtain ⟨r1, r2, r3⟩ := refCvec_push es 2 (fun _ => none)
  refine ⟨v, e, ?_, ?_⟩
  · rw [h1, r1, Nat.add_comm]
  · intro k x hk
    rw [Nat.add_comm]
    exact h2 _ _ (r3 k x hk)

/-! ### Term hash tables -/

/-- the reference for one bucket: pairs in the order of arrival -/
structure BRep (v : List Int) (l : List (Int × Int)) : Prop where
  len : ∃ n : Nat, v[0]? = some (n : Int) ∧ n < v.length ∧ 2 * l.length + 2 ≤ n + 1
  rep : ∃ f, CRep v (2 * l.length + 2) f
  at' : ∀ k p, l[k]? = some p → v[2 * k + 2]? = some p.1 ∧ v[2 * k + 3]? = some p.2

theorem brep_new (junk : Nat → Int) : BRep (cvecNew junk 4) [] :=
  ⟨⟨4, rfl, by simp [cvecNew], by simp⟩, ⟨_, cvecNew_rep junk 4⟩, by simp⟩

theorem brep_push (junk : Nat → Int) {v : List Int} {l : List (Int × Int)} (h : BRep v l)
    (hs : 2 * l.length + 3 ≤ maxPos) (t c : Int) : ∃ v1 v2, cvecPush junk v t = some v1 ∧ cvecPush junk v1 c = some v2 ∧
      BRep v2 (l ++ [(t, c)]) := by
  obtain ⟨f0, hr0⟩ := h.rep
  -- collect what the bucket holds into a value function
  have hr : CRep v (2 * l.length + 2) (fun j => if j < 2 * l.length + 2 ∧ 2 ≤ j then v[j]? else none) := by
    refine ⟨hr0.ok, hr0.two, hr0.next, ?_⟩
    intro j e he
    split at he
    · rename_i hj; exact ⟨hj.2, he⟩
    · cases he
  obtain ⟨v1, e1, h1, n1, a1, b1, c1⟩ := cvecPush_spec junk hr (by omega) (by omega) t
  obtain ⟨v2, e2, h2, n2, a2, b2, c2⟩ := cvecPush_spec junk h1 (by omega) (by omega) c
  refine ⟨v1, v2, e1, e2, ?_, ?_, ?_⟩
  · obtain ⟨len, hok⟩ := h2.ok
    refine ⟨n2, a2, ?_, ?_⟩
    · have := hok.head
      rw [a2] at this
      injection this with this
      have := hok.lo
      omega
    · simp only [List.length_append, List.length_singleton]
      omega
  · exact ⟨_, by
      simp only [List.length_append, List.length_singleton]
      have e : 2 * (l.length + 1) + 2 = 2 * l.length + 2 + 1 + 1 := by omega
      rw [e]; exact h2⟩
  · intro k p hk
    by_cases hkl : k < l.length
    · rw [List.getElem?_append_left hkl] at hk
      obtain ⟨p1, p2⟩ := h.at' k p hk
      constructor
      · refine (h2.vals _ _ ?_).2
        simp only [vput]
        rw [if_neg (by omega), if_neg (by omega), if_pos (by omega)]
        exact p1
      · refine (h2.vals _ _ ?_).2
        simp only [vput]
        rw [if_neg (by omega), if_neg (by omega), if_pos (by omega)]
        exact p2
    · rw [List.getElem?_append_right (by omega)] at hk
      have hk0 : k = l.length := by
        have := (List.getElem?_eq_some_iff.1 hk).1
        simp at this
        omega
      subst hk0
      simp only [Nat.sub_self, List.getElem?_cons_zero, Option.some.injEq] at hk
      subst hk
      constructor
      · refine (h2.vals _ _ ?_).2
        rw [vput, if_neg (by omega), vput, if_pos rfl]
      · refine (h2.vals _ _ ?_).2
        rw [vput, if_pos rfl]

/-- looking through a bucket finds the first equal term -/
theorem findLoop_spec (tm : Int → Term) (x : Int) {v : List Int} {l : List (Int × Int)} (h : BRep v l) :
    ∀ (n k : Nat), l.length ≤ k + n → findLoop tm x v n (2 * k + 2) =
      some (((l.drop k).find? fun p => decide (tm x = tm p.1)).map (·.2)) := by
  obtain ⟨len, h0, h0', h0''⟩ := h.len
  obtain ⟨f, hr⟩ := h.rep
  intro n
  induction n with
  | zero =>
    intro k hk
    have : l.drop k = [] := List.drop_eq_nil_of_le (by omega)
    simp [findLoop, this]
  | succ n ih =>
    intro k hk
    simp only [findLoop, rd, h0, hr.next]
    by_cases hkl : k < l.length
    · rw [if_pos (by omega)]
      obtain ⟨p1, p2⟩ := h.at' k l[k] (by simp [hkl])
      rw [p1]
      simp only
      have hd : l.drop k = l[k] :: l.drop (k + 1) := List.drop_eq_getElem_cons hkl
      rw [hd, List.find?_cons]
      by_cases heq : tm x = tm l[k].1
      · rw [if_pos ((eqTerm_iff _ _).2 heq), show 2 * k + 2 + 1 = 2 * k + 3 by omega, p2]
        simp [heq]
      · rw [if_neg (fun h => heq ((eqTerm_iff _ _).1 h))]
        rw [show 2 * k + 2 + 2 = 2 * (k + 1) + 2 by omega, ih (k + 1) (by omega)]
        simp [heq]
    · rw [if_neg (by omega)]
      have : l.drop k = [] := List.drop_eq_nil_of_le (by omega)
      simp [this]

/-- the table represents the pairs pushed, in order; `hs` gives the hash a term is pushed with -/
def TRep (tm : Int → Term) (hs : Term → Int) (t : TH) (ps : List (Int × Int)) : Prop :=
  ∀ s, match t.bk s with
    | none => ps.filter (fun p => slot t (hs (tm p.1)) == some s) = []
    | some v => BRep v (ps.filter (fun p => slot t (hs (tm p.1)) == some s))

theorem slot_some {t : TH} (hl : 2 ≤ t.len) (hash : Int) : ∃ s, slot t hash = some s := by
  simp only [slot]
  have h : ∀ x : Int, 0 ≤ x → ∃ s, (if 1 ≤ (if x + 1 ≥ (t.len : Int) then x.tmod (t.len - 1) else x) + 1 ∧
      (if x + 1 ≥ (t.len : Int) then x.tmod (t.len - 1) else x) + 1 < (t.len : Int) then
      some ((if x + 1 ≥ (t.len : Int) then x.tmod (t.len - 1) else x) + 1).toNat else none) = some s := by
    intro x hx
    split
    · have h1 : 0 ≤ x.tmod (t.len - 1) := Int.tmod_nonneg _ hx
      have h2 : x.tmod (t.len - 1) < (t.len : Int) - 1 := Int.tmod_lt_of_pos _ (by omega)
      exact ⟨_, if_pos (by omega)⟩
    · exact ⟨_, if_pos (by omega)⟩
  split
  · exact h _ (by omega)
  · exact h _ (by omega)

theorem slot_congr {t t' : TH} (h : t.len = t'.len) (x : Int) : slot t x = slot t' x := by
  simp only [slot, h]

theorem pushTH_spec (junk : Nat → Int) (tm : Int → Term) (hs : Term → Int) {t : TH} (hl : 2 ≤ t.len)
    {ps : List (Int × Int)} (h : TRep tm hs t ps) (hsz : 2 * ps.length + 3 ≤ maxPos) (x c : Int) :
    ∃ t', pushTH junk t (hs (tm x)) x c = some t' ∧ t'.len = t.len ∧ TRep tm hs t' (ps ++ [(x, c)]) := by
  obtain ⟨s, es⟩ := slot_some hl (hs (tm x))
  have hb : BRep ((t.bk s).getD (cvecNew junk 4)) (ps.filter (fun p => slot t (hs (tm p.1)) == some s)) := by
    have := h s
    rcases hbk : t.bk s with _ | v
    · rw [hbk] at this
      simp only at this
      rw [this]
      exact brep_new junk
    · rw [hbk] at this
      exact this
  obtain ⟨v1, v2, e1, e2, hb2⟩ := brep_push junk hb (by
    have := List.length_filter_le (fun p => slot t (hs (tm p.1)) == some s) ps
    omega) x c
  refine ⟨{ t with bk := fun i => if i = s then some v2 else t.bk i }, ?_, rfl, ?_⟩
  · simp only [pushTH, es, Option.bind_some, e1, e2, Option.map_some]
  · intro s'
    have hsl : ∀ y, slot { t with bk := fun i => if i = s then some v2 else t.bk i } y = slot t y :=
      fun y => slot_congr rfl y
    simp only [hsl]
    by_cases hss : s' = s
    · subst hss
      simp only [if_true]
      rw [List.filter_append]
      simpa [es] using hb2
    · simp only [if_neg hss]
      have : List.filter (fun p => slot t (hs (tm p.1)) == some s') (ps ++ [(x, c)]) =
          List.filter (fun p => slot t (hs (tm p.1)) == some s') ps := by
        rw [List.filter_append]
        have : (some s == some s') = false := by simp [Ne.symm hss]
        simp [es, this]
      rw [this]
      exact h s'

theorem findTH_spec (tm : Int → Term) (hs : Term → Int) {t : TH} (hl : 2 ≤ t.len) {ps : List (Int × Int)}
    (h : TRep tm hs t ps) (x : Int) :
    findTH tm t x (hs (tm x)) = some ((ps.find? fun p => decide (tm x = tm p.1)).map (·.2)) := by
  obtain ⟨s, es⟩ := slot_some hl (hs (tm x))
  have key : (ps.filter (fun p => slot t (hs (tm p.1)) == some s)).find? (fun p => decide (tm x = tm p.1)) =
      ps.find? fun p => decide (tm x = tm p.1) := by
    rw [List.find?_filter]
    congr 1
    funext p
    by_cases hp : tm x = tm p.1
    · rw [← hp, es]; simp
    · simp [hp]
  simp only [findTH, es, Option.bind_some]
  have hb := h s
  rcases hbk : t.bk s with _ | v
  · rw [hbk] at hb
    simp only at hb ⊢
    rw [hb] at key
    rw [← key]
    rfl
  · rw [hbk] at hb
    simp only at hb ⊢
    have hlen : (ps.filter (fun p => slot t (hs (tm p.1)) == some s)).length ≤ 0 + v.length := by
      obtain ⟨n, _, a, b⟩ := hb.len
      omega
    rw [show (2 : Nat) = 2 * 0 + 2 by rfl, findLoop_spec tm x hb v.length 0 hlen, List.drop_zero, key]

/-- an operation on a table -/
inductive ThOp
  | push (term cl : Int)
  | find (term : Int)

/-- running operations; the answers of the lookups in order -/
def runTH (junk : Nat → Int) (tm : Int → Term) (hs : Term → Int) : TH → List ThOp → Option (List (Option Int))
  | _, [] => some []
  | t, .push x c :: os => (pushTH junk t (hs (tm x)) x c).bind fun t => runTH junk tm hs t os
  | t, .find x :: os => (findTH tm t x (hs (tm x))).bind fun r => (runTH junk tm hs t os).map (r :: ·)

/-- the answers of a plain list of pairs: the clause of the first pair with an equal term -/
def refTH (tm : Int → Term) : List (Int × Int) → List ThOp → List (Option Int)
  | _, [] => []
  | ps, .push x c :: os => refTH tm (ps ++ [(x, c)]) os
  | ps, .find x :: os => ((ps.find? fun p => decide (tm x = tm p.1)).map (·.2)) :: refTH tm ps os

theorem runTH_spec (junk : Nat → Int) (tm : Int → Term) (hs : Term → Int) : ∀ (os : List ThOp) {t : TH}
    {ps : List (Int × Int)}, 2 ≤ t.len → TRep tm hs t ps → 2 * (ps.length + os.length) + 3 ≤ maxPos →
    runTH junk tm hs t os = some (refTH tm ps os)
  | [], t, ps, _, _, _ => rfl
  | .push x c :: os, t, ps, hl, h, hsz => by
    simp only [List.length_cons] at hsz
    obtain ⟨t', e, hl', h'⟩ := pushTH_spec junk tm hs hl h (by omega) x c
    simp only [runTH, e, Option.bind_some, refTH]
    exact runTH_spec junk tm hs os (by omega) h' (by simp; omega)
  | .find x :: os, t, ps, hl, h, hsz => by
    simp only [List.length_cons] at hsz
    simp only [runTH, findTH_spec tm hs hl h x, Option.bind_some, refTH]
    rw [runTH_spec junk tm hs os hl h (by omega)]
    rfl

/-- C25.  Term hash tables: for every table length, every hash function and every sequence of pushes
and lookups, no access leaves the allocated words and every lookup answers like a plain list of the
pushed pairs: it gives the clause first pushed with an equal term, and NULL only if no equal term
was pushed. -/
theorem C25_termhash_refines (junk : Nat → Int) (tm : Int → Term) (hs : Term → Int) (len : Nat) (hl : 2 ≤ len)
    (os : List ThOp) (hsz : 2 * os.length + 3 ≤ maxPos) :
    runTH junk tm hs (TH.new len) os = some (refTH tm [] os) :=
  runTH_spec junk tm hs os hl (fun _ => rfl) (by simpa using hsz)

/-- C25.  The hash the program uses is within the table, so the theorem above applies to it with
tables of NROF_CLTERM_HASHVEC_ELS words without folding: values are between 0 and 999997. -/
theorem C25_term_hash_range (h : Nat ⊕ Const → BitVec 64) (f : Const) (as : List Term) :
    0 ≤ (termHash h (.app f as)).toInt ∧ (termHash h (.app f as)).toInt < 999998 := by
  simp only [termHash]
  generalize (termHashL h (absW (h (.inr f))) as).toInt = x
  have h1 : x.tmod 999998 < 999998 := Int.tmod_lt_of_pos _ (by omega)
  have h2 : -999998 < x.tmod 999998 := by
    have := Int.lt_tmod_of_pos x (show (0 : Int) < 999998 by omega)
    exact this
  generalize x.tmod 999998 = y at *
  have e : (BitVec.ofInt 64 y).toInt = y := by
    rw [BitVec.toInt_ofInt, Int.bmod_def]
    omega
  simp only [absW, e]
  split
  · have : (0 - BitVec.ofInt 64 y).toInt = -y := by
      rw [BitVec.toInt_sub, e, Int.bmod_def]
      simp
      omega
    rw [this]
    omega
  · rw [e]; omega

/-- three pushes grow a bucket of a table of length 2 past its first allocation; both terms are
found again -/
example : runTH (fun _ => 77) (fun i => .const (.int i)) (fun _ => 5) (TH.new 2)
    [.push 1 10, .push 2 20, .push 3 30, .find 3, .find 1, .find 4] = some [some 30, some 10, none] := by
  rw [C25_termhash_refines _ _ _ _ (by omega) _ (by decide)]
  decide

example : CvSmall 2 [.push 5, .store 9 7, .push 6] ∧
    (refCvec 2 (fun _ => none) [.push 5, .store 9 7, .push 6]).1 = 11 := by
  refine ⟨⟨by decide, ⟨by decide, by decide, ⟨by decide, ?_⟩⟩⟩, by decide⟩
  show _ ≤ _
  decide

end Gkc.Props
