import Verif.Fields
import Mathlib.Data.List.Perm.Basic
import Mathlib.Data.List.Count

/-! Facts about Verif/Fields.lean: the maps, the uses of values in fields, and the invariant. -/

namespace Gkc.Fields

/-! ### The areas -/

variable {α : Type}

def keys (m : List (Nat × α)) : List Nat := m.map (·.1)

theorem get_put (m : List (Nat × α)) (o : Nat) (b : α) (k : Nat) :
    get (put m o b) k = if k = o then (get m o).map (fun _ => b) else get m k := by
  induction m with
  | nil => simp [put, get]
  | cons p m ih =>
    obtain ⟨a, x⟩ := p
    by_cases h : a = o
    · subst h
      by_cases hk : k = a
      · subst hk; simp [put, get]
      · have hk' : ¬ a = k := fun h => hk h.symm
        simp [put, get, hk, hk']
    · by_cases hk : k = o
      · subst hk
        have := ih
        simp [put, get, h, ih]
      · by_cases ha : a = k
        · simp [put, get, hk, ha]
        · simp [put, get, h, hk, ha, ih]

theorem get_none_iff (m : List (Nat × α)) (o : Nat) : get m o = none ↔ o ∉ keys m := by
  induction m with
  | nil => simp [get, keys]
  | cons p m ih =>
    obtain ⟨a, x⟩ := p
    by_cases h : a = o
    · simp [get, keys, h]
    · have : ¬ o = a := fun e => h e.symm
      simp only [get, if_neg h, ih, keys, List.map_cons, List.mem_cons, this, false_or]

theorem keys_put (m : List (Nat × α)) (o : Nat) (b : α) : keys (put m o b) = keys m := by
  induction m with
  | nil => rfl
  | cons p m ih =>
    obtain ⟨a, x⟩ := p
    by_cases h : a = o
    · simp [put, keys, h]
    · simp only [put, if_neg h, keys, List.map_cons] at ih ⊢
      rw [ih]

theorem keys_drop_sub (m : List (Nat × α)) (o : Nat) : (keys (drop m o)).Sublist (keys m) := by
  induction m with
  | nil => simp [drop, keys]
  | cons p m ih =>
    obtain ⟨a, x⟩ := p
    by_cases h : a = o
    · simp [drop, keys, h]
    · simp only [drop, if_neg h, keys, List.map_cons] at ih ⊢
      exact ih.cons_cons a

theorem get_drop {m : List (Nat × α)} (hn : (keys m).Nodup) (o k : Nat) :
    get (drop m o) k = if k = o then none else get m k := by
  induction m with
  | nil => simp [drop, get]
  | cons p m ih =>
    obtain ⟨a, x⟩ := p
    simp only [keys, List.map_cons, List.nodup_cons] at hn
    by_cases h : a = o
    · subst h
      by_cases hk : k = a
      · subst hk
        simp only [drop, if_true]
        exact (get_none_iff m k).mpr hn.1
      · have hk' : ¬ a = k := fun h => hk h.symm
        simp [drop, get, hk, hk']
    · by_cases hk : k = o
      · subst hk
        simp [drop, get, h, ih hn.2]
      · by_cases ha : a = k
        · simp [drop, get, hk, ha]
        · simp [drop, get, h, hk, ha, ih hn.2]

theorem get_cons (m : List (Nat × α)) (o : Nat) (b : α) (k : Nat) :
    get ((o, b) :: m) k = if k = o then some b else get m k := by
  by_cases h : k = o
  · simp [get, h]
  · have : ¬ o = k := fun e => h e.symm
    simp [get, h, this]

theorem findText_some {m : List (Nat × Str)} (hn : (keys m).Nodup) {t : String} {k : Nat}
    (h : findText m t = some k) : ∃ n, get m k = some ⟨t, n⟩ := by
  induction m with
  | nil => simp [findText] at h
  | cons p m ih =>
    obtain ⟨a, x⟩ := p
    simp only [keys, List.map_cons, List.nodup_cons] at hn
    by_cases ht : x.text = t
    · simp only [findText, if_pos ht, Option.some.injEq] at h
      subst h
      exact ⟨x.refs, by simp [get, ← ht]⟩
    · simp only [findText, if_neg ht] at h
      obtain ⟨n, hg⟩ := ih hn.2 h
      have hne : ¬ a = k := by
        intro e
        subst e
        rw [(get_none_iff m a).mpr hn.1] at hg
        cases hg
      exact ⟨n, by simp [get, hne, hg]⟩

/-! ### Uses of values -/

/-- The fields, each with the record it belongs to. -/
def uses (m : List (Nat × Rec)) : List (Nat × V) := m.flatMap fun p => p.2.fields.map (Prod.mk p.1)

theorem uses_drop {m : List (Nat × Rec)} {r : Nat} {x : Rec} (h : get m r = some x) :
    (uses m).Perm (x.fields.map (Prod.mk r) ++ uses (drop m r)) := by
  induction m with
  | nil => simp [get] at h
  | cons p m ih =>
    obtain ⟨a, y⟩ := p
    by_cases ha : a = r
    · subst ha
      simp only [get, if_true, Option.some.injEq] at h
      subst h
      simp [uses, drop]
    · simp only [get, if_neg ha] at h
      simp only [drop, if_neg ha, uses, List.flatMap_cons]
      have := ih h
      simp only [uses] at this
      refine (this.append_left _).trans ?_
      rw [← List.append_assoc, ← List.append_assoc]
      exact (List.perm_append_comm).append_right _

theorem uses_put {m : List (Nat × Rec)} {r : Nat} {x : Rec} (y : Rec) (h : get m r = some x) :
    (x.fields.map (Prod.mk r) ++ uses (put m r y)).Perm (y.fields.map (Prod.mk r) ++ uses m) := by
  induction m with
  | nil => simp [get] at h
  | cons p m ih =>
    obtain ⟨a, z⟩ := p
    by_cases ha : a = r
    · subst ha
      simp only [get, if_true, Option.some.injEq] at h
      subst h
      simp only [put, if_true, uses, List.flatMap_cons]
      rw [← List.append_assoc, ← List.append_assoc]
      exact (List.perm_append_comm).append_right _
    · simp only [get, if_neg ha] at h
      simp only [put, if_neg ha, uses, List.flatMap_cons]
      have := ih h
      simp only [uses] at this
      rw [← List.append_assoc, ← List.append_assoc]
      refine ((List.perm_append_comm).append_right _).trans ?_
      refine List.Perm.trans ?_ ((List.perm_append_comm (l₁ := z.fields.map (Prod.mk a))).append_right _)
      rw [List.append_assoc, List.append_assoc]
      exact this.append_left _

theorem uses_put_same {m : List (Nat × Rec)} {r : Nat} {x y : Rec} (h : get m r = some x)
    (hf : y.fields = x.fields) : uses (put m r y) = uses m := by
  induction m with
  | nil => simp [get] at h
  | cons p m ih =>
    obtain ⟨a, z⟩ := p
    by_cases ha : a = r
    · subst ha
      simp only [get, if_true, Option.some.injEq] at h
      subst h
      simp [put, uses, hf]
    · simp only [get, if_neg ha] at h
      have := ih h
      simp only [uses] at this
      simp only [put, if_neg ha, uses, List.flatMap_cons, this]

theorem set_perm (l : List V) (i : Nat) (v old : V) (h : l[i]? = some old) :
    (old :: l.set i v).Perm (v :: l) := by
  induction l generalizing i with
  | nil => simp at h
  | cons a l ih =>
    cases i with
    | zero =>
      simp only [List.getElem?_cons_zero, Option.some.injEq] at h
      subst h
      exact List.Perm.swap _ _ _
    | succ i =>
      simp only [List.getElem?_cons_succ] at h
      simp only [List.set_cons_succ]
      exact (List.Perm.swap _ _ _).trans (((ih i h).cons a).trans (List.Perm.swap _ _ _))

/-- How often a value is used. -/
def cnt (L : List (Nat × V)) (v : V) : Nat := (L.map (·.2)).count v

theorem cnt_perm {L L' : List (Nat × V)} (h : L.Perm L') (v : V) : cnt L v = cnt L' v :=
  (h.map _).count_eq v

theorem cnt_cons (h : Nat) (v : V) (L : List (Nat × V)) (w : V) :
    cnt ((h, v) :: L) w = cnt L w + if v = w then 1 else 0 := by
  simp only [cnt, List.map_cons, List.count_cons]
  by_cases e : v = w
  · simp [e]
  · simp [e]

theorem cnt_append (L L' : List (Nat × V)) (w : V) : cnt (L ++ L') w = cnt L w + cnt L' w := by
  simp [cnt]

theorem cnt_pos {L : List (Nat × V)} {v : V} : 0 < cnt L v ↔ ∃ h, (h, v) ∈ L := by
  simp [cnt, List.count_pos_iff]

/-! ### The invariant -/

/-- Strings: the count is the number of uses (always zero with QUICK_REASONER); used strings are there. -/
def StrOK (q : Bool) (L : List (Nat × V)) (m : List (Nat × Str)) : Prop :=
  (keys m).Nodup ∧ ∀ o,
    (∀ x, get m o = some x → x.refs = if q then 0 else (cnt L (.str o) : Int)) ∧
    (get m o = none → cnt L (.str o) = 0)

/-- Other objects: used at most once; used ones are there. -/
def BoxOK (L : List (Nat × V)) (m : List (Nat × Int)) : Prop :=
  (keys m).Nodup ∧ ∀ o, cnt L (.box o) ≤ 1 ∧ (get m o = none → cnt L (.box o) = 0)

/-- Records: the chain has each parent as often as it has the record in a field (the chain is empty with
QUICK_REASONER); used records are there. -/
def BackOK (q : Bool) (L : List (Nat × V)) (m : List (Nat × Rec)) : Prop :=
  (keys m).Nodup ∧ ∀ o,
    (∀ x, get m o = some x → ∀ p, x.back.count p = if q then 0 else L.count (p, .ref o)) ∧
    (get m o = none → cnt L (.ref o) = 0)

structure Inv (q : Bool) (L : List (Nat × V)) (s : St) : Prop where
  str : StrOK q L s.strs
  box : BoxOK L s.boxes
  back : BackOK q L s.recs

theorem Inv.perm {q : Bool} {L L' : List (Nat × V)} {s : St} (h : Inv q L s) (hp : L.Perm L') : Inv q L' s := by
  obtain ⟨⟨h1, h2⟩, ⟨h3, h4⟩, ⟨h5, h6⟩⟩ := h
  refine ⟨⟨h1, fun o => ?_⟩, ⟨h3, fun o => ?_⟩, ⟨h5, fun o => ?_⟩⟩
  · rw [← cnt_perm hp]; exact h2 o
  · rw [← cnt_perm hp]; exact h4 o
  · rw [← cnt_perm hp]
    simp only [← hp.count_eq]
    exact h6 o

/-- `s'` has the records of `s` with the same fields, and strings and other objects only where `s` has the same. -/
structure Sub (s s' : St) : Prop where
  recs : ∀ r, (get s'.recs r).map (·.fields) = (get s.recs r).map (·.fields)
  uses : uses s'.recs = Fields.uses s.recs
  strs : ∀ o x, get s'.strs o = some x → ∃ y, get s.strs o = some y ∧ y.text = x.text
  boxes : ∀ o x, get s'.boxes o = some x → get s.boxes o = some x

theorem Sub.refl (s : St) : Sub s s :=
  ⟨fun _ => rfl, rfl, fun _ x h => ⟨x, h, rfl⟩, fun _ _ h => h⟩

theorem Sub.trans {s s' s'' : St} (h : Sub s s') (h' : Sub s' s'') : Sub s s'' := by
  refine ⟨fun r => (h'.recs r).trans (h.recs r), h'.uses.trans h.uses, fun o x hx => ?_,
    fun o x hx => h.boxes o x (h'.boxes o x hx)⟩
  obtain ⟨y, hy, e⟩ := h'.strs o x hx
  obtain ⟨z, hz, e'⟩ := h.strs o y hy
  exact ⟨z, hz, e'.trans e⟩

/-- The object a value points to is there. -/
def Live (s : St) : V → Prop
  | .imm _ => True
  | .str o => (get s.strs o).isSome
  | .box o => (get s.boxes o).isSome
  | .ref o => (get s.recs o).isSome

theorem Inv.live {q : Bool} {L : List (Nat × V)} {s : St} (h : Inv q L s) {v : V} (hv : 0 < cnt L v) :
    Live s v := by
  cases v with
  | imm n => exact trivial
  | str o =>
    show (get s.strs o).isSome = true
    by_contra hc
    have := (h.str.2 o).2 (by simpa using hc)
    omega
  | box o =>
    show (get s.boxes o).isSome = true
    by_contra hc
    have := (h.box.2 o).2 (by simpa using hc)
    omega
  | ref o =>
    show (get s.recs o).isSome = true
    by_contra hc
    have := (h.back.2 o).2 (by simpa using hc)
    omega

/-! ### Giving up a use -/

theorem StrOK.other {q : Bool} {L : List (Nat × V)} {m : List (Nat × Str)} {h : Nat} {v : V}
    (hs : StrOK q ((h, v) :: L) m) (hv : ∀ o, v ≠ .str o) : StrOK q L m := by
  refine ⟨hs.1, fun o => ?_⟩
  have := hs.2 o
  rw [cnt_cons, if_neg (hv o)] at this
  simpa using this

theorem StrOK.other' {q : Bool} {L : List (Nat × V)} {m : List (Nat × Str)} {h : Nat} {v : V}
    (hs : StrOK q L m) (hv : ∀ o, v ≠ .str o) : StrOK q ((h, v) :: L) m := by
  refine ⟨hs.1, fun o => ?_⟩
  rw [cnt_cons, if_neg (hv o)]
  simpa using hs.2 o

theorem BoxOK.other {L : List (Nat × V)} {m : List (Nat × Int)} {h : Nat} {v : V}
    (hs : BoxOK ((h, v) :: L) m) (hv : ∀ o, v ≠ .box o) : BoxOK L m := by
  refine ⟨hs.1, fun o => ?_⟩
  have := hs.2 o
  rw [cnt_cons, if_neg (hv o)] at this
  simpa using this

theorem BoxOK.other' {L : List (Nat × V)} {m : List (Nat × Int)} {h : Nat} {v : V}
    (hs : BoxOK L m) (hv : ∀ o, v ≠ .box o) : BoxOK ((h, v) :: L) m := by
  refine ⟨hs.1, fun o => ?_⟩
  rw [cnt_cons, if_neg (hv o)]
  simpa using hs.2 o

theorem BackOK.other {q : Bool} {L : List (Nat × V)} {m : List (Nat × Rec)} {h : Nat} {v : V}
    (hs : BackOK q ((h, v) :: L) m) (hv : ∀ o, v ≠ .ref o) : BackOK q L m := by
  refine ⟨hs.1, fun o => ?_⟩
  have := hs.2 o
  rw [cnt_cons, if_neg (hv o)] at this
  refine ⟨fun x hx p => ?_, by simpa using this.2⟩
  have h1 := this.1 x hx p
  rwa [List.count_cons_of_ne (by intro e; cases e; exact hv o rfl)] at h1

theorem BackOK.other' {q : Bool} {L : List (Nat × V)} {m : List (Nat × Rec)} {h : Nat} {v : V}
    (hs : BackOK q L m) (hv : ∀ o, v ≠ .ref o) : BackOK q ((h, v) :: L) m := by
  refine ⟨hs.1, fun o => ?_⟩
  rw [cnt_cons, if_neg (hv o)]
  refine ⟨fun x hx p => ?_, by simpa using (hs.2 o).2⟩
  rw [List.count_cons_of_ne (by intro e; cases e; exact hv o rfl)]
  exact (hs.2 o).1 x hx p

/-- free_field_encoffset with a use that is given up. -/
theorem free_ok {q : Bool} {L : List (Nat × V)} {s : St} {h : Nat} {v : V}
    (hs : StrOK q ((h, v) :: L) s.strs) (hb : BoxOK ((h, v) :: L) s.boxes)
    (hq : q = true → ∀ o, v = .str o → cnt L v = 0) :
    ∃ s', freeField s v = some s' ∧ StrOK q L s'.strs ∧ BoxOK L s'.boxes ∧ s'.recs = s.recs ∧ Sub s s' := by
  cases v with
  | imm n => exact ⟨s, rfl, hs.other (by simp), hb.other (by simp), rfl, Sub.refl s⟩
  | ref o => exact ⟨s, rfl, hs.other (by simp), hb.other (by simp), rfl, Sub.refl s⟩
  | box o =>
    have h1 := hb.2 o
    rw [cnt_cons, if_pos rfl] at h1
    obtain ⟨x, hx⟩ : ∃ x, get s.boxes o = some x := by
      cases hg : get s.boxes o with
      | none => have := h1.2 hg; omega
      | some x => exact ⟨x, rfl⟩
    refine ⟨{ s with boxes := drop s.boxes o }, by simp [freeField, hx], hs.other (by simp), ⟨?_, ?_⟩, rfl,
      ⟨fun _ => rfl, rfl, fun _ x h => ⟨x, h, rfl⟩, ?_⟩⟩
    · exact hb.1.sublist (keys_drop_sub _ _)
    · intro k
      dsimp only
      rw [get_drop hb.1]
      have h2 := hb.2 k
      rw [cnt_cons] at h2
      by_cases hk : k = o
      · subst hk; rw [if_pos rfl] at h2 ⊢; exact ⟨by omega, fun _ => by omega⟩
      · have : ¬ V.box o = V.box k := by intro e; cases e; exact hk rfl
        rw [if_neg this] at h2
        rw [if_neg hk]
        exact h2
    · intro k x hx
      dsimp only at hx
      rw [get_drop hb.1] at hx
      by_cases hk : k = o
      · rw [if_pos hk] at hx; cases hx
      · rwa [if_neg hk] at hx
  | str o =>
    have h1 := hs.2 o
    rw [cnt_cons, if_pos rfl] at h1
    obtain ⟨x, hx⟩ : ∃ x, get s.strs o = some x := by
      cases hg : get s.strs o with
      | none => have := h1.2 hg; omega
      | some x => exact ⟨x, rfl⟩
    have hr := h1.1 x hx
    by_cases hgt : x.refs - 1 > 0
    · refine ⟨{ s with strs := put s.strs o ⟨x.text, x.refs - 1⟩ }, by simp only [freeField, hx, if_pos hgt], ⟨?_, ?_⟩,
        hb.other (by simp), rfl, ⟨fun _ => rfl, rfl, ?_, fun _ _ h => h⟩⟩
      · dsimp only; rw [keys_put]; exact hs.1
      · intro k
        dsimp only
        rw [get_put]
        have h2 := hs.2 k
        rw [cnt_cons] at h2
        by_cases hk : k = o
        · subst hk
          rw [if_pos rfl] at h2 ⊢
          rw [hx]
          refine ⟨fun y hy => ?_, fun hy => by simp at hy⟩
          simp only [Option.map_some, Option.some.injEq] at hy
          subst hy
          dsimp only
          cases q with
          | true => simp only [if_true] at hr; omega
          | false =>
            simp only [Bool.false_eq_true, if_false] at hr ⊢
            push_cast at hr
            omega
        · have : ¬ V.str o = V.str k := by intro e; cases e; exact hk rfl
          rw [if_neg this] at h2
          rw [if_neg hk]
          exact h2
      · intro k y hy
        dsimp only at hy
        rw [get_put] at hy
        by_cases hk : k = o
        · subst hk
          rw [if_pos rfl, hx] at hy
          simp only [Option.map_some, Option.some.injEq] at hy
          subst hy
          exact ⟨x, hx, rfl⟩
        · rw [if_neg hk] at hy
          exact ⟨y, hy, rfl⟩
    · refine ⟨{ s with strs := drop s.strs o }, by simp only [freeField, hx, if_neg hgt], ⟨?_, ?_⟩,
        hb.other (by simp), rfl, ⟨fun _ => rfl, rfl, ?_, fun _ _ h => h⟩⟩
      · exact hs.1.sublist (keys_drop_sub _ _)
      · intro k
        dsimp only
        rw [get_drop hs.1]
        have h2 := hs.2 k
        rw [cnt_cons] at h2
        by_cases hk : k = o
        · subst hk
          rw [if_pos rfl] at h2 ⊢
          refine ⟨fun y hy => (by cases hy), fun _ => ?_⟩
          cases q with
          | true => exact hq rfl k rfl
          | false =>
            simp only [Bool.false_eq_true, if_false] at hr
            push_cast at hr
            omega
        · have : ¬ V.str o = V.str k := by intro e; cases e; exact hk rfl
          rw [if_neg this] at h2
          rw [if_neg hk]
          exact h2
      · intro k y hy
        dsimp only at hy
        rw [get_drop hs.1] at hy
        by_cases hk : k = o
        · rw [if_pos hk] at hy; cases hy
        · rw [if_neg hk] at hy
          exact ⟨y, hy, rfl⟩

/-- Taking the cell out of the chain with a use that is given up. -/
theorem take_ok {q : Bool} {L : List (Nat × V)} {s : St} {h : Nat} {v : V}
    (hs : BackOK q ((h, v) :: L) s.recs) (hq : q = true → ∀ o, v ≠ .ref o) :
    ∃ s', takeBack s h v = .ok s' ∧ BackOK q L s'.recs ∧ s'.strs = s.strs ∧ s'.boxes = s.boxes ∧ Sub s s' := by
  cases v with
  | imm n => exact ⟨s, rfl, hs.other (by simp), rfl, rfl, Sub.refl s⟩
  | str o => exact ⟨s, rfl, hs.other (by simp), rfl, rfl, Sub.refl s⟩
  | box o => exact ⟨s, rfl, hs.other (by simp), rfl, rfl, Sub.refl s⟩
  | ref o =>
    have hq' : q = false := by
      cases q with
      | true => exact absurd rfl (hq rfl o)
      | false => rfl
    subst hq'
    have h1 := hs.2 o
    rw [cnt_cons, if_pos rfl] at h1
    obtain ⟨x, hx⟩ : ∃ x, get s.recs o = some x := by
      cases hg : get s.recs o with
      | none => have := h1.2 hg; omega
      | some x => exact ⟨x, rfl⟩
    have hc := h1.1 x hx
    simp only [Bool.false_eq_true, if_false] at hc
    have hm : h ∈ x.back := by
      have := hc h
      rw [List.count_cons_self] at this
      exact List.count_pos_iff.mp (by omega)
    refine ⟨{ s with recs := put s.recs o { x with back := x.back.erase h } }, by simp [takeBack, hx, hm], ⟨?_, ?_⟩,
      rfl, rfl, ⟨?_, ?_, fun _ x h => ⟨x, h, rfl⟩, fun _ _ h => h⟩⟩
    · dsimp only; rw [keys_put]; exact hs.1
    · intro k
      dsimp only
      rw [get_put]
      have h2 := hs.2 k
      rw [cnt_cons] at h2
      by_cases hk : k = o
      · subst hk
        rw [if_pos rfl] at h2 ⊢
        rw [hx]
        refine ⟨fun y hy p => ?_, fun hy => by simp at hy⟩
        simp only [Option.map_some, Option.some.injEq] at hy
        subst hy
        dsimp only
        simp only [Bool.false_eq_true, if_false]
        have hp := hc p
        by_cases hph : p = h
        · subst hph
          rw [List.count_cons_self] at hp
          rw [List.count_erase_self]
          omega
        · rw [List.count_erase_of_ne hph]
          rw [List.count_cons_of_ne (by intro e; cases e; exact hph rfl)] at hp
          exact hp
      · have : ¬ V.ref o = V.ref k := by intro e; cases e; exact hk rfl
        rw [if_neg this] at h2
        rw [if_neg hk]
        refine ⟨fun y hy p => ?_, by simpa using h2.2⟩
        have h3 := h2.1 y hy p
        rwa [List.count_cons_of_ne (by intro e; cases e; exact hk rfl)] at h3
    · intro k
      dsimp only
      rw [get_put]
      by_cases hk : k = o
      · subst hk; rw [if_pos rfl, hx]; rfl
      · rw [if_neg hk]
    · exact uses_put_same hx rfl

/-! ### Taking up a use -/

theorem addRef_ok {q : Bool} {L : List (Nat × V)} {s : St} {v : V} (h : Nat) (hq : q = false)
    (hs : StrOK q L s.strs) (hl : Live s v) :
    ∃ s', addRef s v = some s' ∧ StrOK q ((h, v) :: L) s'.strs ∧ s'.boxes = s.boxes ∧ s'.recs = s.recs ∧
      Sub s s' ∧ keys s'.strs = keys s.strs := by
  subst hq
  cases v with
  | imm n => exact ⟨s, rfl, hs.other' (by simp), rfl, rfl, Sub.refl s, rfl⟩
  | box o => exact ⟨s, rfl, hs.other' (by simp), rfl, rfl, Sub.refl s, rfl⟩
  | ref o => exact ⟨s, rfl, hs.other' (by simp), rfl, rfl, Sub.refl s, rfl⟩
  | str o =>
    obtain ⟨x, hx⟩ := Option.isSome_iff_exists.mp hl
    refine ⟨{ s with strs := put s.strs o ⟨x.text, x.refs + 1⟩ }, by simp [addRef, hx], ⟨?_, ?_⟩, rfl, rfl,
      ⟨fun _ => rfl, rfl, ?_, fun _ _ h => h⟩, ?_⟩
    · dsimp only; rw [keys_put]; exact hs.1
    · intro k
      dsimp only
      rw [get_put, cnt_cons]
      have h2 := hs.2 k
      by_cases hk : k = o
      · subst hk
        rw [if_pos rfl, if_pos rfl, hx]
        refine ⟨fun y hy => ?_, fun hy => by simp at hy⟩
        simp only [Option.map_some, Option.some.injEq] at hy
        subst hy
        have := h2.1 x hx
        simp only [Bool.false_eq_true, if_false] at this ⊢
        push_cast
        omega
      · have : ¬ V.str o = V.str k := by intro e; cases e; exact hk rfl
        rw [if_neg this, if_neg hk]
        exact h2
    · intro k y hy
      dsimp only at hy
      rw [get_put] at hy
      by_cases hk : k = o
      · subst hk
        rw [if_pos rfl, hx] at hy
        simp only [Option.map_some, Option.some.injEq] at hy
        subst hy
        exact ⟨x, hx, rfl⟩
      · rw [if_neg hk] at hy
        exact ⟨y, hy, rfl⟩
    · dsimp only; rw [keys_put]

theorem addBack_ok {q : Bool} {L : List (Nat × V)} {s : St} {v : V} (h : Nat) (hq : q = false)
    (hs : BackOK q L s.recs) (hl : Live s v) :
    ∃ s', addBack s h v = some s' ∧ BackOK q ((h, v) :: L) s'.recs ∧ s'.strs = s.strs ∧ s'.boxes = s.boxes ∧
      Sub s s' := by
  subst hq
  cases v with
  | imm n => exact ⟨s, rfl, hs.other' (by simp), rfl, rfl, Sub.refl s⟩
  | box o => exact ⟨s, rfl, hs.other' (by simp), rfl, rfl, Sub.refl s⟩
  | str o => exact ⟨s, rfl, hs.other' (by simp), rfl, rfl, Sub.refl s⟩
  | ref o =>
    obtain ⟨x, hx⟩ := Option.isSome_iff_exists.mp hl
    refine ⟨{ s with recs := put s.recs o { x with back := x.back ++ [h] } }, by simp [addBack, hx], ⟨?_, ?_⟩,
      rfl, rfl, ⟨?_, ?_, fun _ x h => ⟨x, h, rfl⟩, fun _ _ h => h⟩⟩
    · dsimp only; rw [keys_put]; exact hs.1
    · intro k
      dsimp only
      rw [get_put, cnt_cons]
      have h2 := hs.2 k
      by_cases hk : k = o
      · subst hk
        rw [if_pos rfl, if_pos rfl, hx]
        refine ⟨fun y hy p => ?_, fun hy => by simp at hy⟩
        simp only [Option.map_some, Option.some.injEq] at hy
        subst hy
        have := h2.1 x hx p
        simp only [Bool.false_eq_true, if_false] at this ⊢
        rw [List.count_append, List.count_singleton, List.count_cons, this]
        by_cases hph : p = h
        · subst hph; simp
        · have hph' : ¬ h = p := fun e => hph e.symm
          simp [hph']
      · have : ¬ V.ref o = V.ref k := by intro e; cases e; exact hk rfl
        rw [if_neg this, if_neg hk]
        refine ⟨fun y hy p => ?_, by simpa using h2.2⟩
        rw [List.count_cons_of_ne (by intro e; cases e; exact hk rfl)]
        exact h2.1 y hy p
    · intro k
      dsimp only
      rw [get_put]
      by_cases hk : k = o
      · subst hk; rw [if_pos rfl, hx]; rfl
      · rw [if_neg hk]
    · exact uses_put_same hx rfl

theorem BoxOK.add {L : List (Nat × V)} {m : List (Nat × Int)} {v : V} (h : Nat) (hb : BoxOK L m)
    (hl : ∀ o, v = .box o → (get m o).isSome) (hn : ∀ o, v = .box o → cnt L v = 0) : BoxOK ((h, v) :: L) m := by
  refine ⟨hb.1, fun k => ?_⟩
  rw [cnt_cons]
  have h2 := hb.2 k
  by_cases hk : v = .box k
  · rw [if_pos hk]
    have h3 := hn k hk
    rw [hk] at h3
    refine ⟨by omega, fun hg => ?_⟩
    have h4 := hl k hk
    rw [hg] at h4
    cases h4
  · rw [if_neg hk]
    exact h2

/-! ### Storing -/

theorem store_ok {s : St} {r i : Nat} {v old : V} (h : getField s r i = some old) :
    ∃ x, get s.recs r = some x ∧ x.fields[i]? = some old ∧
      store s r i v = some { s with recs := put s.recs r { x with fields := x.fields.set i v } } ∧
      ((r, old) :: uses (put s.recs r { x with fields := x.fields.set i v })).Perm ((r, v) :: uses s.recs) := by
  unfold getField at h
  split at h
  · cases h
  · next x hx =>
    refine ⟨x, hx, h, ?_, ?_⟩
    · have : i < x.fields.length := (List.getElem?_eq_some_iff.mp h).1
      simp [store, hx, this]
    · have h1 := uses_put { x with fields := x.fields.set i v } hx
      dsimp only at h1
      have h2 := (set_perm x.fields i v old h).map (Prod.mk r)
      simp only [List.map_cons] at h2
      refine List.perm_iff_count.mpr fun a => ?_
      have c1 := h1.count_eq a
      have c2 := h2.count_eq a
      simp only [List.count_append, List.count_cons] at c1 c2 ⊢
      generalize (if ((r, old) == a) = true then 1 else 0) = n1 at c1 c2 ⊢
      generalize (if ((r, v) == a) = true then 1 else 0) = n2 at c1 c2 ⊢
      omega

theorem store_back {q : Bool} {L : List (Nat × V)} {m : List (Nat × Rec)} {r : Nat} {x y : Rec}
    (hb : BackOK q L m) (hx : get m r = some x) (hy : y.back = x.back) : BackOK q L (put m r y) := by
  refine ⟨by rw [keys_put]; exact hb.1, fun o => ?_⟩
  rw [get_put]
  by_cases ho : o = r
  · subst ho
    rw [if_pos rfl, hx]
    refine ⟨fun z hz p => ?_, fun hz => by simp at hz⟩
    simp only [Option.map_some, Option.some.injEq] at hz
    subst hz
    rw [hy]
    exact (hb.2 o).1 x hx p
  · rw [if_neg ho]
    exact hb.2 o

/-! ### The loop of wg_delete_record -/

theorem clear_ok {q : Bool} {r : Nat} : ∀ (fs : List V) {L : List (Nat × V)} {s : St},
    Inv q (fs.map (Prod.mk r) ++ L) s →
    (q = true → (∀ o, .ref o ∉ fs) ∧ ∀ o, .str o ∈ fs → cnt (fs.map (Prod.mk r) ++ L) (.str o) = 1) →
    ∃ s', clear s r fs = some (s', true) ∧ Inv q L s' ∧ Sub s s' := by
  intro fs
  induction fs with
  | nil => intro L s h _; exact ⟨s, rfl, h, Sub.refl s⟩
  | cons v vs ih =>
    intro L s h hq
    have h' : Inv q ((r, v) :: (vs.map (Prod.mk r) ++ L)) s := h
    obtain ⟨s1, e1, hb1, hst1, hbx1, hsub1⟩ := take_ok h'.back
      (fun hqt o hv => (hq hqt).1 o (by rw [hv]; exact List.mem_cons_self))
    obtain ⟨s2, e2, hst2, hbx2, hrec2, hsub2⟩ := free_ok (s := s1) (h := r) (v := v)
      (L := vs.map (Prod.mk r) ++ L) (by rw [hst1]; exact h'.str) (by rw [hbx1]; exact h'.box)
      (fun hqt o hv => by
        have h3 := (hq hqt).2 o (by rw [hv]; exact List.mem_cons_self)
        have h4 : cnt ((r, v) :: (vs.map (Prod.mk r) ++ L)) (.str o) = 1 := h3
        rw [cnt_cons, if_pos hv] at h4
        rw [hv]; omega)
    have hinv : Inv q (vs.map (Prod.mk r) ++ L) s2 := ⟨hst2, hbx2, by rw [hrec2]; exact hb1⟩
    obtain ⟨s3, e3, hi3, hsub3⟩ := ih hinv (fun hqt => ⟨fun o ho => (hq hqt).1 o (List.mem_cons_of_mem _ ho),
      fun o ho => by
        have h3 := (hq hqt).2 o (List.mem_cons_of_mem _ ho)
        have h4 : cnt ((r, v) :: (vs.map (Prod.mk r) ++ L)) (.str o) = 1 := h3
        have h5 : 0 < cnt (vs.map (Prod.mk r) ++ L) (.str o) :=
          cnt_pos.mpr ⟨r, List.mem_append_left _ (List.mem_map_of_mem ho)⟩
        rw [cnt_cons] at h4
        omega⟩)
    refine ⟨s3, ?_, hi3, (hsub1.trans hsub2).trans hsub3⟩
    simp only [clear, e1, e2]
    exact e3

/-! ### Perm -/

theorem StrOK.perm {q : Bool} {L L' : List (Nat × V)} {m : List (Nat × Str)} (h : StrOK q L m) (hp : L.Perm L') :
    StrOK q L' m := by
  refine ⟨h.1, fun o => ?_⟩
  rw [← cnt_perm hp]; exact h.2 o

theorem BoxOK.perm {L L' : List (Nat × V)} {m : List (Nat × Int)} (h : BoxOK L m) (hp : L.Perm L') :
    BoxOK L' m := by
  refine ⟨h.1, fun o => ?_⟩
  rw [← cnt_perm hp]; exact h.2 o

theorem BackOK.perm {q : Bool} {L L' : List (Nat × V)} {m : List (Nat × Rec)} (h : BackOK q L m)
    (hp : L.Perm L') : BackOK q L' m := by
  refine ⟨h.1, fun o => ?_⟩
  rw [← cnt_perm hp]
  simp only [← hp.count_eq]
  exact h.2 o

/-! ### Fields and uses -/

theorem get_mem {α : Type} {m : List (Nat × α)} {o : Nat} {a : α} (h : get m o = some a) : (o, a) ∈ m := by
  induction m with
  | nil => simp [get] at h
  | cons p m ih =>
    obtain ⟨b, y⟩ := p
    by_cases hb : b = o
    · subst hb
      simp only [get, if_true, Option.some.injEq] at h
      subst h
      exact List.mem_cons_self
    · simp only [get, if_neg hb] at h
      exact List.mem_cons_of_mem _ (ih h)

theorem mem_get {α : Type} {m : List (Nat × α)} (hn : (keys m).Nodup) {o : Nat} {a : α} (h : (o, a) ∈ m) :
    get m o = some a := by
  induction m with
  | nil => simp at h
  | cons p m ih =>
    obtain ⟨b, y⟩ := p
    simp only [keys, List.map_cons, List.nodup_cons] at hn
    rcases List.mem_cons.mp h with h | h
    · cases h
      simp [get]
    · have hb : ¬ b = o := by
        intro e
        subst e
        exact hn.1 (List.mem_map_of_mem (f := (·.1)) h)
      simp only [get, if_neg hb]
      exact ih hn.2 h

theorem mem_uses {m : List (Nat × Rec)} (hn : (keys m).Nodup) {p : Nat} {v : V} :
    (p, v) ∈ uses m ↔ ∃ x, get m p = some x ∧ v ∈ x.fields := by
  simp only [uses, List.mem_flatMap, List.mem_map, Prod.mk.injEq]
  constructor
  · rintro ⟨⟨k, x⟩, hm, w, hw, rfl, rfl⟩
    exact ⟨x, mem_get hn hm, hw⟩
  · rintro ⟨x, hx, hv⟩
    exact ⟨(p, x), get_mem hx, v, hv, rfl, rfl⟩

theorem drop_put {α : Type} (m : List (Nat × α)) (o : Nat) (b : α) : drop (put m o b) o = drop m o := by
  induction m with
  | nil => rfl
  | cons p m ih =>
    obtain ⟨k, y⟩ := p
    by_cases hk : k = o
    · simp [put, drop, hk]
    · simp [put, drop, hk, ih]

theorem StrOK.drop {q : Bool} {L : List (Nat × V)} {m : List (Nat × Str)} {o : Nat} (h : StrOK q L m)
    (hc : cnt L (.str o) = 0) : StrOK q L (Fields.drop m o) := by
  refine ⟨h.1.sublist (keys_drop_sub _ _), fun k => ?_⟩
  rw [get_drop h.1]
  by_cases hk : k = o
  · subst hk
    rw [if_pos rfl]
    exact ⟨fun x hx => (by cases hx), fun _ => hc⟩
  · rw [if_neg hk]
    exact h.2 k

theorem BackOK.drop {q : Bool} {L : List (Nat × V)} {m : List (Nat × Rec)} {o : Nat} (h : BackOK q L m)
    (hc : cnt L (.ref o) = 0) : BackOK q L (Fields.drop m o) := by
  refine ⟨h.1.sublist (keys_drop_sub _ _), fun k => ?_⟩
  rw [get_drop h.1]
  by_cases hk : k = o
  · subst hk
    rw [if_pos rfl]
    exact ⟨fun x hx => (by cases hx), fun _ => hc⟩
  · rw [if_neg hk]
    exact h.2 k

theorem uses_create (m : List (Nat × Rec)) (o n : Nat) :
    uses ((o, ⟨[], List.replicate n (.imm 0)⟩) :: m) = List.replicate n (o, .imm 0) ++ uses m := by
  simp [uses]

theorem cnt_replicate (o n : Nat) (L : List (Nat × V)) (v : V) (hv : v ≠ .imm 0) :
    cnt (List.replicate n (o, .imm 0) ++ L) v = cnt L v := by
  rw [cnt_append]
  have : cnt (List.replicate n (o, V.imm 0)) v = 0 := by
    simp only [cnt, List.map_replicate, List.count_replicate]
    have : ¬ (V.imm 0 == v) = true := by simpa using fun e => hv e.symm
    rw [if_neg this]
  omega

theorem count_zero_of_cnt {L : List (Nat × V)} {v : V} (h : cnt L v = 0) (p : Nat) : L.count (p, v) = 0 := by
  by_contra hc
  have : (p, v) ∈ L := List.count_pos_iff.mp (by omega)
  have := cnt_pos.mpr ⟨p, this⟩
  omega

end Gkc.Fields
