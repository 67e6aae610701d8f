import Verif.FieldsLemmas

/-!
C65: a record keeps the values stored in it.  Model: Verif/Fields.lean (Db/dbdata.c).
-/

namespace Gkc.Props.Fd

open Gkc.Fields

/-! ### What a user sees -/

/-- What a value stands for. -/
inductive C where
  | num (n : Int)
  | text (t : String)
  | big (n : Int)
  | record (r : Nat)
deriving DecidableEq, Repr

/-- What an encoded value stands for; `none` if the object is not there (any more). -/
def shown (s : St) : V → Option C
  | .imm n => some (.num n)
  | .str o => (get s.strs o).map fun x => .text x.text
  | .box o => (get s.boxes o).map .big
  | .ref o => (get s.recs o).map fun _ => .record o

/-- The records with what their fields stand for. -/
def contents (s : St) (r : Nat) : Option (List (Option C)) :=
  (get s.recs r).map fun x => x.fields.map (shown s)

/-- Changing the record at one place. -/
def upd (f : Nat → Option (List (Option C))) (r : Nat) (x : Option (List (Option C))) :
    Nat → Option (List (Option C)) := fun k => if k = r then x else f k

/-- Some record has a field that refers to record `r`. -/
def Referenced (f : Nat → Option (List (Option C))) (r : Nat) : Prop :=
  ∃ p l, f p = some l ∧ some (.record r) ∈ l

/-- What a call should do, according to the comments at the functions in Db/dbdata.c and Db/dbapi.h. -/
def Does (s : St) (op : Op) (s' : St) (out : Out) : Prop :=
  match op with
  | .create o n =>
    out = .val (.ref o) ∧ contents s' = upd (contents s) o (some (List.replicate n (some (.num 0))))
  | .encodeStr _ t => contents s' = contents s ∧ ∃ v, out = .val v ∧ shown s' v = some (.text t)
  | .encodeBox _ n => contents s' = contents s ∧ ∃ v, out = .val v ∧ shown s' v = some (.big n)
  | .setNew r i v => out = .code 0 ∧
      contents s' = upd (contents s) r ((contents s r).map fun l => l.set i (shown s v))
  | .set r i v => out = .code 0 ∧
      contents s' = upd (contents s) r ((contents s r).map fun l => l.set i (shown s v))
  | .delete r =>
    (Referenced (contents s) r → out = .code (-1) ∧ contents s' = contents s) ∧
    (¬ Referenced (contents s) r → out = .code 0 ∧ contents s' = upd (contents s) r none)
  | .free _ => contents s' = contents s

/-- A value is in a field of a record. -/
def InField (s : St) (v : V) : Prop := ∃ p x, get s.recs p = some x ∧ v ∈ x.fields

/-- Calls that keep to the rules: records and values given are there, field numbers are right, a field given to
wg_set_new_field has no data yet, and a value with an object of its own is stored or freed only if it is in no
field.  (The rules for offsets are rules for the allocator.) -/
def Legal (s : St) : Op → Prop
  | .create o _ => get s.recs o = none ∧ o ≠ 0
  | .encodeStr o _ => get s.strs o = none
  | .encodeBox o _ => get s.boxes o = none
  | .setNew r i v => getField s r i = some (.imm 0) ∧ shown s v ≠ none ∧ (∀ o, v = .box o → ¬ InField s v)
  | .set r i v => (∃ old, getField s r i = some old ∧ (old = v ∨ ∀ o, v = .box o → ¬ InField s v)) ∧ shown s v ≠ none
  | .delete r => contents s r ≠ none
  | .free v => shown s v ≠ none ∧ (∀ o, v = .box o → ¬ InField s v)

/-- Number of fields that have a value. -/
def times (s : St) (v : V) : Nat := (s.recs.map fun p => p.2.fields.count v).sum

/-- Calls that also avoid what QUICK_REASONER leaves out: no change of a field that has data, no deletion of a
record that refers to a record, is referred to, or has a string in common with another field, no freeing of a
string that is in a field. -/
def Careful (s : St) (op : Op) : Prop :=
  Legal s op ∧
  match op with
  | .set r i v => getField s r i = some v
  | .delete r => ¬ Referenced (contents s) r ∧ ∀ x, get s.recs r = some x → ∀ v ∈ x.fields,
      (∀ c, v ≠ .ref c) ∧ ((∃ o, v = .str o) → times s v = 1)
  | .free v => (∃ o, v = .str o) → ¬ InField s v
  | _ => True

/-- The states that calls lead to from an empty database. -/
inductive Reach (quick : Bool) (rules : St → Op → Prop) : St → Prop
  | empty : Reach quick rules St.empty
  | step {s s' : St} {op : Op} {out : Out} :
      Reach quick rules s → rules s op → step quick s op = some (s', out) → Reach quick rules s'

/-! ### Proofs -/

theorem times_eq (s : St) (v : V) : times s v = cnt (uses s.recs) v := by
  unfold times
  generalize s.recs = m
  induction m with
  | nil => rfl
  | cons p m ih =>
    simp only [List.map_cons, List.sum_cons, ih, uses, List.flatMap_cons, cnt, List.map_append, List.count_append,
      List.map_map]
    congr 1
    have : ((fun x : Nat × V => x.2) ∘ Prod.mk p.1) = id := rfl
    rw [this, List.map_id]

theorem shown_live {s : St} {v : V} : shown s v ≠ none ↔ Live s v := by
  cases v with
  | imm n => simp [shown, Live]
  | str o => simp [shown, Live, Option.isSome_iff_ne_none]
  | box o => simp [shown, Live, Option.isSome_iff_ne_none]
  | ref o => simp [shown, Live, Option.isSome_iff_ne_none]

theorem sub_shown {s s' : St} (h : Sub s s') {v : V} (hl : Live s' v) : shown s' v = shown s v := by
  cases v with
  | imm n => rfl
  | str o =>
    obtain ⟨x, hx⟩ := Option.isSome_iff_exists.mp hl
    obtain ⟨y, hy, e⟩ := h.strs o x hx
    simp [shown, hx, hy, e]
  | box o =>
    obtain ⟨x, hx⟩ := Option.isSome_iff_exists.mp hl
    simp [shown, hx, h.boxes o x hx]
  | ref o =>
    have := h.recs o
    simp only [shown]
    cases h1 : get s'.recs o <;> cases h2 : get s.recs o <;> simp [h1, h2] at this ⊢

theorem sub_live {s s' : St} (h : Sub s s') {v : V} (hl : Live s' v) : Live s v := by
  rw [← shown_live] at hl ⊢
  rw [← sub_shown h (shown_live.mp hl)]
  exact hl

/-- Put with the keys kept changes nothing shown. -/
theorem put_shown (s : St) (r : Nat) (y : Rec) (v : V) :
    shown { s with recs := put s.recs r y } v = shown s v := by
  cases v with
  | imm n => rfl
  | str o => rfl
  | box o => rfl
  | ref o =>
    simp only [shown, get_put]
    by_cases h : o = r
    · subst h; rw [if_pos rfl]; cases get s.recs o <;> rfl
    · rw [if_neg h]

theorem contents_eq {s s' : St} (hn : (keys s'.recs).Nodup)
    (h : ∀ v, 0 < cnt (uses s'.recs) v → shown s' v = shown s v) (p : Nat) :
    contents s' p = (get s'.recs p).map fun x => x.fields.map (shown s) := by
  unfold contents
  cases hg : get s'.recs p with
  | none => rfl
  | some x =>
    simp only [Option.map_some, Option.some.injEq]
    exact List.map_congr_left fun v hv => h v (cnt_pos.mpr ⟨p, (mem_uses hn).mpr ⟨x, hg, hv⟩⟩)

theorem inField_iff {s : St} (hn : (keys s.recs).Nodup) (v : V) : InField s v ↔ 0 < cnt (uses s.recs) v := by
  rw [cnt_pos]
  constructor
  · rintro ⟨p, x, hx, hv⟩; exact ⟨p, (mem_uses hn).mpr ⟨x, hx, hv⟩⟩
  · rintro ⟨p, hp⟩; obtain ⟨x, hx, hv⟩ := (mem_uses hn).mp hp; exact ⟨p, x, hx, hv⟩

theorem contents_same {s s' : St} (hn : (keys s'.recs).Nodup)
    (h : ∀ v, 0 < cnt (uses s'.recs) v → shown s' v = shown s v)
    (hr : ∀ p, (get s'.recs p).map (·.fields) = (get s.recs p).map (·.fields)) : contents s' = contents s := by
  funext p
  rw [contents_eq hn h]
  have := congrArg (Option.map fun l : List V => l.map (shown s)) (hr p)
  rw [Option.map_map, Option.map_map] at this
  exact this

theorem referenced_iff {s : St} (hn : (keys s.recs).Nodup) {r : Nat} (hr : get s.recs r ≠ none) :
    Referenced (contents s) r ↔ 0 < cnt (uses s.recs) (.ref r) := by
  rw [← inField_iff hn]
  constructor
  · rintro ⟨p, l, hl, hm⟩
    unfold contents at hl
    obtain ⟨x, hx, rfl⟩ := Option.map_eq_some_iff.mp hl
    obtain ⟨v, hv, e⟩ := List.mem_map.mp hm
    refine ⟨p, x, hx, ?_⟩
    cases v with
    | imm n => simp [shown] at e
    | str o => simp [shown] at e
    | box o => simp [shown] at e
    | ref o =>
      simp only [shown, Option.map_eq_some_iff, C.record.injEq] at e
      obtain ⟨_, _, rfl⟩ := e
      exact hv
  · rintro ⟨p, x, hx, hv⟩
    refine ⟨p, x.fields.map (shown s), by simp [contents, hx], List.mem_map.mpr ⟨_, hv, ?_⟩⟩
    obtain ⟨y, hy⟩ := Option.ne_none_iff_exists'.mp hr
    simp [shown, hy]

/-- The rules for the two ways of compiling. -/
def rules : Bool → St → Op → Prop
  | false => Legal
  | true => Careful

theorem rules_legal {q : Bool} {s : St} {op : Op} (h : rules q s op) : Legal s op := by
  cases q with
  | false => exact h
  | true => exact h.1

theorem create_ok {q : Bool} {s : St} (hi : Inv q (uses s.recs) s) {o n : Nat} (h : rules q s (.create o n)) :
    ∃ s' out, step q s (.create o n) = some (s', out) ∧ Does s (.create o n) s' out ∧ Inv q (uses s'.recs) s' := by
  have hl := (rules_legal h).1
  refine ⟨_, _, rfl, ⟨rfl, ?_⟩, ?_⟩
  · have hne : ∀ v, 0 < cnt (uses s.recs) v → v ≠ .ref o := by
      intro v hv e
      subst e
      have := (hi.back.2 o).2 hl
      omega
    have hn : (keys ((o, (⟨[], List.replicate n (.imm 0)⟩ : Rec)) :: s.recs)).Nodup := by
      simp only [keys, List.map_cons, List.nodup_cons]
      exact ⟨(get_none_iff _ _).mp hl, hi.back.1⟩
    funext p
    rw [contents_eq (s := s) hn]
    · dsimp only
      rw [get_cons]
      unfold upd
      by_cases hp : p = o
      · rw [if_pos hp, if_pos hp]
        simp [shown]
      · rw [if_neg hp, if_neg hp]
        rfl
    · intro v hv
      dsimp only at hv
      cases v with
      | imm n => rfl
      | str o => rfl
      | box o => rfl
      | ref k =>
        rw [uses_create, cnt_replicate _ _ _ _ (by simp)] at hv
        have hk := hne _ hv
        have : ¬ k = o := fun e => hk (by rw [e])
        simp only [shown, get_cons, if_neg this]
  · dsimp only
    rw [uses_create]
    refine ⟨⟨hi.str.1, fun k => ?_⟩, ⟨hi.box.1, fun k => ?_⟩, ⟨?_, fun k => ?_⟩⟩
    · rw [cnt_replicate _ _ _ _ (by simp)]; exact hi.str.2 k
    · rw [cnt_replicate _ _ _ _ (by simp)]; exact hi.box.2 k
    · simp only [keys, List.map_cons, List.nodup_cons]
      exact ⟨(get_none_iff _ _).mp hl, hi.back.1⟩
    · rw [cnt_replicate _ _ _ _ (by simp)]
      have hc : ∀ p, (List.replicate n (o, V.imm 0) ++ uses s.recs).count (p, .ref k) =
          (uses s.recs).count (p, .ref k) := by
        intro p
        rw [List.count_append, List.count_replicate, if_neg (by simp)]
        omega
      rw [get_cons]
      by_cases hk : k = o
      · subst hk
        rw [if_pos rfl]
        refine ⟨fun x hx p => ?_, fun hx => by cases hx⟩
        simp only [Option.some.injEq] at hx
        subst hx
        rw [hc, count_zero_of_cnt ((hi.back.2 k).2 hl)]
        cases q <;> rfl
      · rw [if_neg hk]
        refine ⟨fun x hx p => ?_, (hi.back.2 k).2⟩
        rw [hc]
        exact (hi.back.2 k).1 x hx p

theorem encodeStr_ok {q : Bool} {s : St} (hi : Inv q (uses s.recs) s) {o : Nat} {t : String}
    (h : rules q s (.encodeStr o t)) :
    ∃ s' out, step q s (.encodeStr o t) = some (s', out) ∧ Does s (.encodeStr o t) s' out ∧
      Inv q (uses s'.recs) s' := by
  have hl : get s.strs o = none := rules_legal h
  cases hf : findText s.strs t with
  | some k =>
    obtain ⟨n, hg⟩ := findText_some hi.str.1 hf
    exact ⟨s, .val (.str k), by simp only [step, hf], ⟨rfl, .str k, rfl, by simp [shown, hg]⟩, hi⟩
  | none =>
    have h0 := (hi.str.2 o).2 hl
    refine ⟨{ s with strs := (o, ⟨t, 0⟩) :: s.strs }, .val (.str o), by simp only [step, hf],
      ⟨?_, .str o, rfl, by simp [shown, Fields.get]⟩, ⟨⟨?_, fun k => ?_⟩, hi.box, hi.back⟩⟩
    · refine contents_same hi.back.1 (fun v hv => ?_) fun _ => rfl
      dsimp only at hv
      cases v with
      | imm n => rfl
      | box o => rfl
      | ref o => rfl
      | str k =>
        have : ¬ k = o := by
          intro e
          subst e
          omega
        simp only [shown, get_cons, if_neg this]
    · simp only [keys, List.map_cons, List.nodup_cons]
      exact ⟨(get_none_iff _ _).mp hl, hi.str.1⟩
    · dsimp only
      rw [get_cons]
      by_cases hk : k = o
      · subst hk
        rw [if_pos rfl, h0]
        refine ⟨fun x hx => ?_, fun _ => rfl⟩
        simp only [Option.some.injEq] at hx
        subst hx
        cases q <;> rfl
      · rw [if_neg hk]
        exact hi.str.2 k

theorem encodeBox_ok {q : Bool} {s : St} (hi : Inv q (uses s.recs) s) {o : Nat} {n : Int}
    (h : rules q s (.encodeBox o n)) :
    ∃ s' out, step q s (.encodeBox o n) = some (s', out) ∧ Does s (.encodeBox o n) s' out ∧
      Inv q (uses s'.recs) s' := by
  have hl : get s.boxes o = none := rules_legal h
  have h0 := (hi.box.2 o).2 hl
  refine ⟨_, _, rfl, ⟨?_, .box o, rfl, by simp [shown, Fields.get]⟩, ⟨hi.str, ⟨?_, fun k => ?_⟩, hi.back⟩⟩
  · refine contents_same hi.back.1 (fun v hv => ?_) fun _ => rfl
    dsimp only at hv
    cases v with
    | imm n => rfl
    | str o => rfl
    | ref o => rfl
    | box k =>
      have : ¬ k = o := by
        intro e
        subst e
        omega
      simp only [shown, get_cons, if_neg this]
  · simp only [keys, List.map_cons, List.nodup_cons]
    exact ⟨(get_none_iff _ _).mp hl, hi.box.1⟩
  · dsimp only
    rw [get_cons]
    by_cases hk : k = o
    · subst hk
      rw [if_pos rfl]
      exact ⟨(hi.box.2 k).1, fun _ => h0⟩
    · rw [if_neg hk]
      exact hi.box.2 k

/-- The contents after a store that ends in `s'`. -/
theorem contents_store {s s' : St} {r i : Nat} {v : V} {x : Rec} (hn : (keys s'.recs).Nodup)
    (hx : get s.recs r = some x)
    (hsh : ∀ w, 0 < cnt (uses s'.recs) w → shown s' w = shown s w)
    (hr : ∀ p, (get s'.recs p).map (·.fields) =
      if p = r then some (x.fields.set i v) else (get s.recs p).map (·.fields)) :
    contents s' = upd (contents s) r ((contents s r).map fun l => l.set i (shown s v)) := by
  funext p
  rw [contents_eq hn hsh]
  have := congrArg (Option.map fun l : List V => l.map (shown s)) (hr p)
  rw [Option.map_map] at this
  refine Eq.trans this ?_
  unfold upd
  by_cases hp : p = r
  · rw [if_pos hp, if_pos hp]
    simp only [contents, hx, Option.map_some, List.map_set]
  · rw [if_neg hp, if_neg hp, Option.map_map]
    rfl

theorem put_fields (m : List (Nat × Rec)) {r : Nat} {x y : Rec} (hx : get m r = some x) (p : Nat) :
    (get (put m r y) p).map (·.fields) = if p = r then some y.fields else (get m p).map (·.fields) := by
  rw [get_put]
  by_cases hp : p = r
  · rw [if_pos hp, if_pos hp, hx]; rfl
  · rw [if_neg hp, if_neg hp]

theorem setNew_ok {q : Bool} {s : St} (hi : Inv q (uses s.recs) s) {r i : Nat} {v : V}
    (h : rules q s (.setNew r i v)) :
    ∃ s' out, step q s (.setNew r i v) = some (s', out) ∧ Does s (.setNew r i v) s' out ∧
      Inv q (uses s'.recs) s' := by
  obtain ⟨hf, hlv, hbx⟩ := rules_legal h
  have hlive := shown_live.mp hlv
  obtain ⟨x, hx, hxi, hst, hperm⟩ := store_ok (v := v) hf
  have hbox0 : ∀ o, v = .box o → cnt (uses s.recs) v = 0 := by
    intro o e
    have := hbx o e
    rw [inField_iff hi.back.1] at this
    omega
  -- the uses after the store, without the empty field
  have hbox : BoxOK (uses (put s.recs r { x with fields := x.fields.set i v })) s.boxes := by
    have h1 : BoxOK ((r, v) :: uses s.recs) s.boxes :=
      hi.box.add r (fun o e => by subst e; exact hlive) hbox0
    exact (h1.perm hperm.symm).other (by simp)
  cases q with
  | true =>
    have hs : StrOK true (uses (put s.recs r { x with fields := x.fields.set i v })) s.strs := by
      have h1 : StrOK true ((r, v) :: uses s.recs) s.strs := by
        refine ⟨hi.str.1, fun o => ⟨(hi.str.2 o).1, fun hg => ?_⟩⟩
        rw [cnt_cons, if_neg]
        · exact (hi.str.2 o).2 hg
        · intro e
          subst e
          have hlive : (get s.strs o).isSome := hlive
          rw [hg] at hlive
          cases hlive
      exact (h1.perm hperm.symm).other (by simp)
    have hb : BackOK true (uses (put s.recs r { x with fields := x.fields.set i v })) s.recs := by
      have h1 : BackOK true ((r, v) :: uses s.recs) s.recs := by
        refine ⟨hi.back.1, fun o => ⟨(hi.back.2 o).1, fun hg => ?_⟩⟩
        rw [cnt_cons, if_neg]
        · exact (hi.back.2 o).2 hg
        · intro e
          subst e
          have hlive : (get s.recs o).isSome := hlive
          rw [hg] at hlive
          cases hlive
      exact (h1.perm hperm.symm).other (by simp)
    refine ⟨{ s with recs := put s.recs r { x with fields := x.fields.set i v } }, .code 0,
      by simp [step, setNew, hst], ⟨rfl, ?_⟩, ⟨hs, hbox, store_back hb hx rfl⟩⟩
    exact contents_store (by dsimp only; rw [keys_put]; exact hi.back.1) hx
      (fun w _ => put_shown s r _ w) fun p => put_fields s.recs hx p
  | false =>
    obtain ⟨s2, e2, hs2, hbx2, hrec2, hsub2, _⟩ := addRef_ok (q := false)
      (s := { s with recs := put s.recs r { x with fields := x.fields.set i v } }) (v := v) r rfl hi.str
      (by rw [← shown_live, put_shown]; exact hlv)
    have hb1 : BackOK false (uses s.recs) s2.recs := by rw [hrec2]; exact store_back hi.back hx rfl
    have hl2 : Live s2 v := by
      cases v with
      | imm n => exact trivial
      | str o =>
        by_contra hc
        have hc' : get s2.strs o = none := by simpa [Live] using hc
        have := (hs2.2 o).2 hc'
        rw [cnt_cons, if_pos rfl] at this
        omega
      | box o => show (get s2.boxes o).isSome = true; rw [hbx2]; exact hlive
      | ref o =>
        show (get s2.recs o).isSome = true
        rw [hrec2]
        have : Live { s with recs := put s.recs r { x with fields := x.fields.set i (.ref o) } } (.ref o) := by
          rw [← shown_live, put_shown]; exact hlv
        exact this
    obtain ⟨s3, e3, hb3, hst3, hbx3, hsub3⟩ := addBack_ok (q := false) r rfl hb1 hl2
    have hsub := hsub2.trans hsub3
    have hu : uses s3.recs = uses (put s.recs r { x with fields := x.fields.set i v }) := hsub.uses
    have hinv : Inv false (uses s3.recs) s3 := by
      rw [hu]
      refine ⟨?_, ?_, ?_⟩
      · rw [hst3]; exact (hs2.perm hperm.symm).other (by simp)
      · rw [hbx3, hbx2]; exact hbox
      · exact (hb3.perm hperm.symm).other (by simp)
    refine ⟨s3, .code 0, by simp [step, setNew, hst, e2, e3], ⟨rfl, ?_⟩, hinv⟩
    refine contents_store hinv.back.1 hx (fun w hw => ?_) fun p => ?_
    · rw [sub_shown hsub (hinv.live hw), put_shown]
    · rw [hsub.recs p]; exact put_fields s.recs hx p

theorem set_ok {q : Bool} {s : St} (hi : Inv q (uses s.recs) s) {r i : Nat} {v : V}
    (h : rules q s (.set r i v)) :
    ∃ s' out, step q s (.set r i v) = some (s', out) ∧ Does s (.set r i v) s' out ∧ Inv q (uses s'.recs) s' := by
  obtain ⟨⟨old, hf, hbx⟩, hlv⟩ := rules_legal h
  have hlive := shown_live.mp hlv
  obtain ⟨x, hx, hxi, hst, hperm⟩ := store_ok (v := v) hf
  by_cases hov : old = v
  · subst hov
    refine ⟨s, .code 0, by cases q <;> simp [step, setField, hf], ⟨rfl, ?_⟩, hi⟩
    funext p
    unfold upd
    by_cases hp : p = r
    · subst hp
      simp only [contents, hx, Option.map_some, if_true, ← List.map_set]
      have : x.fields.set i old = x.fields := by
        obtain ⟨hlt, he⟩ := List.getElem?_eq_some_iff.mp hxi
        rw [← he, List.set_getElem_self]
      rw [this]
    · rw [if_neg hp]
  · have hqf : q = false := by
      cases q with
      | false => rfl
      | true =>
        have h2 : getField s r i = some v := h.2
        rw [hf] at h2
        exact absurd (Option.some.inj h2) hov
    subst hqf
    have hbox0 : ∀ o, v = .box o → cnt (uses s.recs) v = 0 := by
      intro o e
      rcases hbx with e' | h'
      · exact absurd e' hov
      · have := h' o e
        rw [inField_iff hi.back.1] at this
        omega
    have hmem : (r, old) ∈ uses s.recs :=
      (mem_uses hi.back.1).mpr ⟨x, hx, List.mem_of_getElem? hxi⟩
    have hL := List.perm_cons_erase hmem
    generalize (uses s.recs).erase (r, old) = L at hL
    have hu : (uses (put s.recs r { x with fields := x.fields.set i v })).Perm ((r, v) :: L) := by
      have := hperm.trans ((hL.cons (r, v)).trans (List.Perm.swap _ _ _))
      exact (List.perm_cons _).mp this
    have hi' := hi.perm hL
    obtain ⟨s1, e1, hb1, hst1, hbx1, hsub1⟩ := take_ok hi'.back (fun hq => by cases hq)
    have hl1 : Live s1 v := by
      cases v with
      | imm n => exact trivial
      | str o => show (get s1.strs o).isSome = true; rw [hst1]; exact hlive
      | box o => show (get s1.boxes o).isSome = true; rw [hbx1]; exact hlive
      | ref o =>
        have hlive : (get s.recs o).isSome = true := hlive
        show (get s1.recs o).isSome = true
        have := hsub1.recs o
        cases h1 : get s1.recs o <;> cases h2 : get s.recs o <;> simp [h1, h2] at this hlive ⊢
    obtain ⟨s2, e2, hs2, hbx2, hrec2, hsub2, _⟩ := addRef_ok (q := false) (s := s1) r rfl
      (by rw [hst1]; exact hi'.str) hl1
    have hb2 : BoxOK ((r, v) :: (r, old) :: L) s2.boxes := by
      rw [hbx2, hbx1]
      exact hi'.box.add r (fun o e => by subst e; exact hlive)
        (fun o e => by rw [← cnt_perm hL]; exact hbox0 o e)
    obtain ⟨s3, e3, hs3, hbx3, hrec3, hsub3⟩ := free_ok (q := false) (s := s2) (h := r) (v := old)
      (L := (r, v) :: L) (hs2.perm (List.Perm.swap _ _ _)) (hb2.perm (List.Perm.swap _ _ _))
      (fun hq => by cases hq)
    have hsub13 := (hsub1.trans hsub2).trans hsub3
    obtain ⟨x3, hx3⟩ : ∃ x3, get s3.recs r = some x3 ∧ x3.fields = x.fields := by
      have := hsub13.recs r
      rw [hx] at this
      obtain ⟨x3, h3, e⟩ := Option.map_eq_some_iff.mp this
      exact ⟨x3, h3, e⟩
    obtain ⟨hx3, hxf⟩ := hx3
    have hlt : i < x3.fields.length := by
      rw [hxf]; exact (List.getElem?_eq_some_iff.mp hxi).1
    have est : store s3 r i v =
        some { s3 with recs := put s3.recs r { x3 with fields := x3.fields.set i v } } := by
      simp [store, hx3, hlt]
    have hb3 : BackOK false L s3.recs := by rw [hrec3, hrec2]; exact hb1
    have hl3 : Live { s3 with recs := put s3.recs r { x3 with fields := x3.fields.set i v } } v := by
      rw [← shown_live, put_shown, shown_live]
      have hc : ∀ w, w = v → 0 < cnt ((r, v) :: L) w := by
        intro w e
        subst e
        rw [cnt_cons, if_pos rfl]
        omega
      cases v with
      | imm n => exact trivial
      | str o =>
        by_contra hn
        have hc' : get s3.strs o = none := by simpa [Live] using hn
        have := (hs3.2 o).2 hc'
        have := hc _ rfl
        omega
      | box o =>
        by_contra hn
        have hc' : get s3.boxes o = none := by simpa [Live] using hn
        have := (hbx3.2 o).2 hc'
        have := hc _ rfl
        omega
      | ref o =>
        show (get s3.recs o).isSome = true
        rw [hrec3, hrec2]
        exact hl1
    obtain ⟨s5, e5, hb5, hst5, hbx5, hsub5⟩ := addBack_ok (q := false) r rfl
      (store_back (y := { x3 with fields := x3.fields.set i v }) hb3 hx3 rfl) hl3
    have hus : uses s5.recs = uses (put s3.recs r { x3 with fields := x3.fields.set i v }) := hsub5.uses
    have hup : (uses s5.recs).Perm ((r, v) :: L) := by
      rw [hus]
      have hg3 : getField s3 r i = some old := by
        unfold getField
        rw [hx3]
        show x3.fields[i]? = some old
        rw [hxf]; exact hxi
      obtain ⟨x', hx', _, _, hp'⟩ := store_ok (v := v) hg3
      rw [hx3] at hx'
      cases hx'
      have hu3 : uses s3.recs = uses s.recs := hsub13.uses
      rw [hu3] at hp'
      have := hp'.trans ((hL.cons (r, v)).trans (List.Perm.swap _ _ _))
      exact (List.perm_cons _).mp this
    have hinv : Inv false (uses s5.recs) s5 := by
      refine ⟨?_, ?_, ?_⟩
      · rw [hst5]; exact hs3.perm hup.symm
      · rw [hbx5]; exact hbx3.perm hup.symm
      · exact hb5.perm hup.symm
    refine ⟨s5, .code 0, by simp [step, setField, hf, hov, e1, e2, e3, est, e5], ⟨rfl, ?_⟩, hinv⟩
    refine contents_store hinv.back.1 hx (fun w hw => ?_) fun p => ?_
    · have hw5 := hinv.live hw
      rw [sub_shown hsub5 hw5, put_shown]
      have h4 := sub_live hsub5 hw5
      rw [← shown_live, put_shown, shown_live] at h4
      exact sub_shown hsub13 h4
    · rw [hsub5.recs p]
      dsimp only
      rw [put_fields s3.recs hx3 p, hxf]
      by_cases hp : p = r
      · rw [if_pos hp, if_pos hp]
      · rw [if_neg hp, if_neg hp, hsub13.recs p]

theorem delete_ok {q : Bool} {s : St} (hi : Inv q (uses s.recs) s) {r : Nat} (h : rules q s (.delete r)) :
    ∃ s' out, step q s (.delete r) = some (s', out) ∧ Does s (.delete r) s' out ∧ Inv q (uses s'.recs) s' := by
  have hl : contents s r ≠ none := rules_legal h
  have hg : get s.recs r ≠ none := by
    intro e
    apply hl
    simp [contents, e]
  obtain ⟨x, hx⟩ := Option.ne_none_iff_exists'.mp hg
  have href := referenced_iff hi.back.1 hg
  by_cases hb : x.back = []
  · have hnr : ¬ Referenced (contents s) r := by
      cases q with
      | true => exact h.2.1
      | false =>
        rw [href]
        intro hc
        obtain ⟨p, hp⟩ := cnt_pos.mp hc
        have h1 := (hi.back.2 r).1 x hx p
        rw [hb] at h1
        simp only [List.count_nil, Bool.false_eq_true, if_false] at h1
        have := List.count_pos_iff.mpr hp
        omega
    have hperm := uses_drop hx
    have hz : cnt (uses (drop s.recs r)) (.ref r) = 0 := by
      rw [href] at hnr
      rw [cnt_perm hperm, cnt_append] at hnr
      omega
    obtain ⟨s1, e1, hi1, hsub⟩ := clear_ok x.fields (hi.perm hperm) (fun hq => by
      subst hq
      have h2 := h.2.2 x hx
      refine ⟨fun o ho => (h2 _ ho).1 o rfl, fun o ho => ?_⟩
      rw [← cnt_perm hperm, ← times_eq]
      exact (h2 _ ho).2 ⟨o, rfl⟩)
    obtain ⟨x1, hx1, hf1⟩ : ∃ x1, get s1.recs r = some x1 ∧ x1.fields = x.fields := by
      have := hsub.recs r
      rw [hx] at this
      obtain ⟨x3, h3, e⟩ := Option.map_eq_some_iff.mp this
      exact ⟨x3, h3, e⟩
    have hup : (uses (drop s.recs r)).Perm (uses (drop s1.recs r)) := by
      have h1 := uses_drop hx1
      rw [hf1, hsub.uses] at h1
      exact (List.perm_append_left_iff _).mp (hperm.symm.trans h1)
    have hinv : Inv q (uses (drop s1.recs r)) { s1 with recs := drop s1.recs r } :=
      Inv.perm ⟨hi1.str, hi1.box, hi1.back.drop hz⟩ hup
    refine ⟨{ s1 with recs := drop s1.recs r }, .code 0, by simp [step, delete, hx, hb, e1],
      ⟨fun hc => absurd hc hnr, fun _ => ⟨rfl, ?_⟩⟩, hinv⟩
    have hshow : ∀ v, 0 < cnt (uses (drop s1.recs r)) v →
        shown { s1 with recs := drop s1.recs r } v = shown s v := by
      intro v hv
      have hlv := hinv.live hv
      have h1 : shown { s1 with recs := drop s1.recs r } v = shown s1 v := by
        cases v with
        | imm n => rfl
        | str o => rfl
        | box o => rfl
        | ref o =>
          have : ¬ o = r := by
            intro e
            subst e
            rw [← cnt_perm hup] at hv
            omega
          simp only [shown, get_drop hi1.back.1, if_neg this]
      rw [h1]
      apply sub_shown hsub
      rw [← shown_live] at hlv ⊢
      rwa [h1] at hlv
    funext p
    rw [contents_eq (s := s) hinv.back.1 hshow]
    dsimp only
    rw [get_drop hi1.back.1]
    unfold upd
    by_cases hp : p = r
    · rw [if_pos hp, if_pos hp]; rfl
    · rw [if_neg hp, if_neg hp]
      have := congrArg (Option.map fun l : List V => l.map (shown s)) (hsub.recs p)
      rw [Option.map_map, Option.map_map] at this
      exact this
  · have hr : Referenced (contents s) r := by
      rw [href]
      obtain ⟨p, hp⟩ := List.exists_mem_of_ne_nil _ hb
      have h1 := (hi.back.2 r).1 x hx p
      have h2 := List.count_pos_iff.mpr hp
      cases q with
      | true => simp only [if_true] at h1; omega
      | false =>
        simp only [Bool.false_eq_true, if_false] at h1
        exact cnt_pos.mpr ⟨p, List.count_pos_iff.mp (by omega)⟩
    exact ⟨s, .code (-1), by simp [step, delete, hx, hb], ⟨fun _ => ⟨rfl, rfl⟩, fun hn => absurd hr hn⟩, hi⟩

theorem free_op_ok {q : Bool} {s : St} (hi : Inv q (uses s.recs) s) {v : V} (h : rules q s (.free v)) :
    ∃ s' out, step q s (.free v) = some (s', out) ∧ Does s (.free v) s' out ∧ Inv q (uses s'.recs) s' := by
  obtain ⟨hlv, hbx⟩ := rules_legal h
  have hlive := shown_live.mp hlv
  have key : ∃ s', freeEnc s v = some s' ∧ Sub s s' ∧ Inv q (uses s.recs) s' := by
    have hbox : BoxOK ((0, v) :: uses s.recs) s.boxes :=
      hi.box.add 0 (fun o e => by subst e; exact hlive) (fun o e => by
        have := hbx o e
        rw [inField_iff hi.back.1] at this
        omega)
    cases q with
    | false =>
      obtain ⟨s2, e2, hs2, hbx2, hrec2, hsub2, _⟩ := addRef_ok (q := false) 0 rfl hi.str hlive
      obtain ⟨s3, e3, hs3, hbx3, hrec3, hsub3⟩ := free_ok (q := false) (s := s2) hs2
        (by rw [hbx2]; exact hbox) (fun hq => by cases hq)
      exact ⟨s3, by simp [freeEnc, e2, e3], hsub2.trans hsub3, ⟨hs3, hbx3, by rw [hrec3, hrec2]; exact hi.back⟩⟩
    | true =>
      cases v with
      | imm n => exact ⟨s, rfl, Sub.refl s, hi⟩
      | ref o => exact ⟨s, rfl, Sub.refl s, hi⟩
      | box o =>
        obtain ⟨s3, e3, hs3, hbx3, hrec3, hsub3⟩ := free_ok (q := true) (s := s) (h := 0) (v := .box o)
          (hi.str.other' (by simp)) hbox (fun _ k e => by cases e)
        exact ⟨s3, e3, hsub3, ⟨hs3, hbx3, by rw [hrec3]; exact hi.back⟩⟩
      | str o =>
        have h2 := h.2 ⟨o, rfl⟩
        rw [inField_iff hi.back.1] at h2
        obtain ⟨y, hy⟩ := Option.isSome_iff_exists.mp hlive
        have h0 := (hi.str.2 o).1 y hy
        simp only [if_true] at h0
        refine ⟨{ s with strs := drop s.strs o }, ?_, ⟨fun _ => rfl, rfl, fun k z hz => ?_, fun _ _ h => h⟩,
          ⟨hi.str.drop (by omega), hi.box, hi.back⟩⟩
        · simp [freeEnc, addRef, freeField, hy, get_put, h0, drop_put]
        · dsimp only at hz
          rw [get_drop hi.str.1] at hz
          by_cases hk : k = o
          · rw [if_pos hk] at hz; cases hz
          · rw [if_neg hk] at hz; exact ⟨z, hz, rfl⟩
  obtain ⟨s', e, hsub, hinv⟩ := key
  have hu : uses s'.recs = uses s.recs := hsub.uses
  have hinv' : Inv q (uses s'.recs) s' := by rw [hu]; exact hinv
  refine ⟨s', .code 0, by simp [step, e], ?_, hinv'⟩
  exact contents_same hinv.back.1 (fun v hv => sub_shown hsub (hinv'.live hv)) hsub.recs

theorem step_ok {q : Bool} {s : St} (hi : Inv q (uses s.recs) s) {op : Op} (h : rules q s op) :
    ∃ s' out, step q s op = some (s', out) ∧ Does s op s' out ∧ Inv q (uses s'.recs) s' := by
  cases op with
  | create o n => exact create_ok hi h
  | encodeStr o t => exact encodeStr_ok hi h
  | encodeBox o n => exact encodeBox_ok hi h
  | setNew r i v => exact setNew_ok hi h
  | set r i v => exact set_ok hi h
  | delete r => exact delete_ok hi h
  | free v => exact free_op_ok hi h

theorem reach_inv {q : Bool} {s : St} (h : Reach q (rules q) s) : Inv q (uses s.recs) s := by
  induction h with
  | empty =>
    refine ⟨⟨by simp [St.empty, keys], fun o => ?_⟩, ⟨by simp [St.empty, keys], fun o => ?_⟩,
      ⟨by simp [St.empty, keys], fun o => ?_⟩⟩ <;> simp [St.empty, Fields.get, uses, cnt]
  | step _ hr he ih =>
    obtain ⟨s1, out1, e1, _, hi1⟩ := step_ok ih hr
    rw [he] at e1
    cases e1
    exact hi1

/-- A sequence of calls. -/
inductive Runs (quick : Bool) (rules : St → Op → Prop) : St → List Op → St → Prop
  | nil (s : St) : Runs quick rules s [] s
  | cons {s s' s'' : St} {op : Op} {ops : List Op} {out : Out} :
      rules s op → step quick s op = some (s', out) → Runs quick rules s' ops s'' →
      Runs quick rules s (op :: ops) s''

/-- The call stores nothing in record `r` and does not delete it. -/
def Apart (r : Nat) : Op → Prop
  | .setNew p _ _ => p ≠ r
  | .set p _ _ => p ≠ r
  | .delete p => p ≠ r
  | _ => True

theorem apart_kept {s s' : St} {op : Op} {out : Out} {r : Nat} (hd : Does s op s' out) (ha : Apart r op)
    (hl : Legal s op) (hr : contents s r ≠ none) : contents s' r = contents s r := by
  cases op with
  | create o n =>
    have : ¬ r = o := by
      rintro rfl
      apply hr
      unfold contents
      rw [hl.1]
      rfl
    rw [hd.2]; exact if_neg this
  | encodeStr o t => rw [hd.1]
  | encodeBox o n => rw [hd.1]
  | setNew p i v => rw [hd.2]; exact if_neg fun e => ha e.symm
  | set p i v => rw [hd.2]; exact if_neg fun e => ha e.symm
  | delete p =>
    by_cases h : Referenced (contents s) p
    · rw [(hd.1 h).2]
    · rw [(hd.2 h).2]; exact if_neg fun e => ha e.symm
  | free v => rw [show contents s' = contents s from hd]

theorem runs_reach {q : Bool} {R : St → Op → Prop} {s s' : St} {ops : List Op} (h : Runs q R s ops s') :
    Reach q R s → Reach q R s' := by
  induction h with
  | nil => exact id
  | cons hr he _ ih => exact fun h => ih (.step h hr he)

theorem runs_kept {q : Bool} {s s' : St} {ops : List Op} {r : Nat} (h : Runs q (rules q) s ops s') :
    Reach q (rules q) s → contents s r ≠ none → (∀ op ∈ ops, Apart r op) → contents s' r = contents s r := by
  induction h with
  | nil => intros; rfl
  | cons hr he _ ih =>
    intro hre hc ha
    obtain ⟨s1, out1, e1, hd, _⟩ := step_ok (reach_inv hre) hr
    rw [he] at e1
    cases e1
    have hk := apart_kept hd (ha _ List.mem_cons_self) (rules_legal hr) hc
    rw [ih (.step hre hr he) (by rw [hk]; exact hc) (fun op hop => ha op (List.mem_cons_of_mem _ hop)), hk]

theorem readable {q : Bool} {s : St} (h : Reach q (rules q) s) {r : Nat} {l : List (Option C)}
    (hc : contents s r = some l) : none ∉ l := by
  have hi := reach_inv h
  unfold contents at hc
  obtain ⟨x, hx, rfl⟩ := Option.map_eq_some_iff.mp hc
  intro hm
  obtain ⟨v, hv, e⟩ := List.mem_map.mp hm
  exact shown_live.mpr (hi.live (cnt_pos.mpr ⟨r, (mem_uses hi.back.1).mpr ⟨x, hx, hv⟩⟩)) e

/-! ### The program as it is compiled -/

/-- Every call does what it should, as long as nothing is done that QUICK_REASONER leaves out.
Missing: without `Careful` it is false, see the theorems below. -/
theorem C65_calls_do_what_they_should_partial {s : St} {op : Op} (h : Reach true Careful s) (ho : Careful s op) :
    ∃ s' out, step true s op = some (s', out) ∧ Does s op s' out := by
  obtain ⟨s', out, e, hd, _⟩ := step_ok (q := true) (reach_inv h) ho
  exact ⟨s', out, e, hd⟩

/-- Every field can be read. -/
theorem C65_fields_readable_partial {s : St} (h : Reach true Careful s) {r : Nat} {l : List (Option C)}
    (hc : contents s r = some l) : none ∉ l :=
  readable (q := true) h hc

/-- Whatever is done with other records and values, a record keeps what is in it. -/
theorem C65_record_kept_partial {s s' : St} {ops : List Op} {r : Nat} (h : Reach true Careful s)
    (hr : contents s r ≠ none) (hrun : Runs true Careful s ops s') (ha : ∀ op ∈ ops, Apart r op) :
    contents s' r = contents s r :=
  runs_kept (q := true) hrun h hr ha

/-- wg_set_field reports success and stores nothing. -/
theorem C65_set_field_does_nothing (s : St) (r i : Nat) (v : V) (l : List (Option C)) (hl : contents s r = some l)
    (hi : i < l.length) : step true s (.set r i v) = some (s, .code 0) := by
  unfold contents at hl
  obtain ⟨x, hx, rfl⟩ := Option.map_eq_some_iff.mp hl
  rw [List.length_map] at hi
  simp [step, setField, getField, hx, hi]

/-- In every state the chains of parents are empty. -/
theorem quick_back {s : St} (h : Reach true (fun _ _ => True) s) : ∀ p x, (p, x) ∈ s.recs → x.back = [] := by
  have hput : ∀ (m : List (Nat × Rec)) (r : Nat) (y : Rec), (∀ p x, (p, x) ∈ m → x.back = []) → y.back = [] →
      ∀ p x, (p, x) ∈ put m r y → x.back = [] := by
    intro m r y hm hy
    induction m with
    | nil => intro p x hp; cases hp
    | cons a m ih =>
      obtain ⟨k, z⟩ := a
      intro p x hp
      simp only [put] at hp
      split at hp
      · rcases List.mem_cons.mp hp with e | hp
        · cases e; exact hy
        · exact hm p x (List.mem_cons_of_mem _ hp)
      · rcases List.mem_cons.mp hp with e | hp
        · cases e; exact hm _ _ List.mem_cons_self
        · exact ih (fun p x h => hm p x (List.mem_cons_of_mem _ h)) p x hp
  have hdrop : ∀ (m : List (Nat × Rec)) (r : Nat), ∀ a, a ∈ drop m r → a ∈ m := by
    intro m r
    induction m with
    | nil => intro a h; exact h
    | cons b m ih =>
      obtain ⟨k, z⟩ := b
      intro a ha
      simp only [drop] at ha
      split at ha
      · exact List.mem_cons_of_mem _ ha
      · rcases List.mem_cons.mp ha with e | ha
        · rw [e]; exact List.mem_cons_self
        · exact List.mem_cons_of_mem _ (ih a ha)
  have hfree : ∀ (s s' : St) (v : V), freeField s v = some s' → s'.recs = s.recs := by
    intro s s' v he
    unfold freeField at he
    split at he
    · cases he; rfl
    · cases he; rfl
    · split at he
      · cases he
      · split at he <;> · cases he; rfl
    · split at he
      · cases he
      · cases he; rfl
  have haddRef : ∀ (s s' : St) (v : V), addRef s v = some s' → s'.recs = s.recs := by
    intro s s' v he
    unfold addRef at he
    split at he
    · split at he
      · cases he
      · cases he; rfl
    · cases he; rfl
  have htake : ∀ (s s' : St) (r : Nat) (v : V), (∀ p x, (p, x) ∈ s.recs → x.back = []) →
      takeBack s r v = .ok s' → s' = s := by
    intro s s' r v hb he
    unfold takeBack at he
    split at he
    · split at he
      · cases he
      · next c y hy =>
        rw [hb _ y (get_mem hy)] at he
        simp at he
    · cases he; rfl
  have hclear : ∀ (vs : List V) (s s' : St) (r : Nat) (b : Bool), (∀ p x, (p, x) ∈ s.recs → x.back = []) →
      clear s r vs = some (s', b) → s'.recs = s.recs := by
    intro vs
    induction vs with
    | nil => intro s s' r b _ he; cases he; rfl
    | cons v vs ih =>
      intro s s' r b hb he
      simp only [clear] at he
      split at he
      · cases he
      · cases he; rfl
      · next s1 h1 =>
        have := htake _ _ _ _ hb h1
        subst this
        split at he
        · cases he
        · next s2 h2 =>
          have h3 := hfree _ _ _ h2
          rw [ih s2 s' r b (by rw [h3]; exact hb) he, h3]
  induction h with
  | empty => intro p x hx; cases hx
  | @step s s' op out _ _ he ih =>
    cases op with
    | create o n =>
      simp only [step, Option.some.injEq, Prod.mk.injEq] at he
      rw [← he.1]
      intro p x hp
      rcases List.mem_cons.mp hp with e | hp
      · cases e; rfl
      · exact ih p x hp
    | encodeStr o t =>
      simp only [step] at he
      split at he <;> · simp only [Option.some.injEq, Prod.mk.injEq] at he; rw [← he.1]; exact ih
    | encodeBox o n =>
      simp only [step, Option.some.injEq, Prod.mk.injEq] at he
      rw [← he.1]
      exact ih
    | setNew r i v =>
      simp only [step, setNew, if_true] at he
      split at he
      · cases he
      · next s1 h1 =>
        simp only [Option.map_some, Option.some.injEq, Prod.mk.injEq] at he
        rw [← he.1]
        unfold store at h1
        split at h1
        · cases h1
        · next y hy =>
          split at h1
          · cases h1
            exact hput _ _ _ ih (ih _ y (get_mem hy))
          · cases h1
    | set r i v =>
      simp only [step, setField, if_true] at he
      split at he
      · cases he
      · simp only [Option.map_some, Option.some.injEq, Prod.mk.injEq] at he
        rw [← he.1]
        exact ih
    | delete r =>
      simp only [step, delete] at he
      split at he
      · cases he
      · next y hy =>
        rw [ih _ y (get_mem hy)] at he
        simp only [ne_eq, not_true_eq_false, if_false] at he
        split at he
        · cases he
        · next s1 h1 =>
          simp only [Option.map_some, Option.some.injEq, Prod.mk.injEq] at he
          rw [← he.1, hclear _ _ _ _ _ ih h1]
          exact ih
        · next s1 h1 =>
          simp only [Option.map_some, Option.some.injEq, Prod.mk.injEq] at he
          rw [← he.1]
          intro p x hp
          have := hdrop _ _ _ hp
          rw [hclear _ _ _ _ _ ih h1] at this
          exact ih p x this
    | free v =>
      simp only [step, freeEnc] at he
      split at he
      · cases he
      · next s1 h1 =>
        cases h2 : freeField s1 v with
        | none => rw [h2] at he; cases he
        | some s2 =>
          rw [h2] at he
          simp only [Option.map_some, Option.some.injEq, Prod.mk.injEq] at he
          rw [← he.1, hfree _ _ _ h2, haddRef _ _ _ h1]
          exact ih

/-- No deletion is ever refused because others refer to the record. -/
theorem C65_delete_never_refused {s s' : St} {r : Nat} {out : Out} (h : Reach true (fun _ _ => True) s)
    (he : step true s (.delete r) = some (s', out)) : out ≠ .code (-1) := by
  simp only [step, delete] at he
  split at he
  · cases he
  · next y hy =>
    rw [quick_back h _ y (get_mem hy)] at he
    simp only [ne_eq, not_true_eq_false, if_false] at he
    split at he
    · cases he
    · simp only [Option.map_some, Option.some.injEq, Prod.mk.injEq] at he
      rw [← he.2]; decide
    · simp only [Option.map_some, Option.some.injEq, Prod.mk.injEq] at he
      rw [← he.2]; decide

/-- A record that refers to a record cannot be deleted: the result is the error "Corrupt backlink chain", or
undefined behaviour before it comes to that. -/
theorem C65_delete_of_referring_fails {s : St} {r c : Nat} {x : Rec} (h : Reach true (fun _ _ => True) s)
    (hx : Fields.get s.recs r = some x) (hc : .ref c ∈ x.fields) :
    step true s (.delete r) = none ∨ ∃ s', step true s (.delete r) = some (s', .code (-3)) := by
  have hb := quick_back h
  have hfree : ∀ (s s' : St) (v : V), freeField s v = some s' → s'.recs = s.recs := by
    intro s s' v he
    unfold freeField at he
    split at he
    · cases he; rfl
    · cases he; rfl
    · split at he
      · cases he
      · split at he <;> · cases he; rfl
    · split at he
      · cases he
      · cases he; rfl
  have key : ∀ (vs : List V) (s : St), (∀ p x, (p, x) ∈ s.recs → x.back = []) → .ref c ∈ vs →
      clear s r vs = none ∨ ∃ s', clear s r vs = some (s', false) := by
    intro vs
    induction vs with
    | nil => intro s _ hm; cases hm
    | cons v vs ih =>
      intro s hb hm
      simp only [clear]
      cases v with
      | ref k =>
        simp only [takeBack]
        cases hg : Fields.get s.recs k with
        | none => exact Or.inl rfl
        | some y =>
          have := hb _ y (get_mem hg)
          simp only [this, List.not_mem_nil, if_false]
          exact Or.inr ⟨s, rfl⟩
      | imm n =>
        simp only [takeBack, freeField]
        exact ih s hb (by simpa using hm)
      | str o =>
        simp only [takeBack]
        cases hf : freeField s (.str o) with
        | none => exact Or.inl rfl
        | some s2 => exact ih s2 (by rw [hfree _ _ _ hf]; exact hb) (by simpa using hm)
      | box o =>
        simp only [takeBack]
        cases hf : freeField s (.box o) with
        | none => exact Or.inl rfl
        | some s2 => exact ih s2 (by rw [hfree _ _ _ hf]; exact hb) (by simpa using hm)
  have hbx := hb r x (get_mem hx)
  rcases key x.fields s hb hc with e | ⟨s', e⟩
  · left; simp [step, delete, hx, hbx, e]
  · right; exact ⟨s', by simp [step, delete, hx, hbx, e]⟩

/-- No record is ever found to have parents. -/
theorem C65_no_parents {s : St} (h : Reach true (fun _ _ => True) s) (r n : Nat) : parents s r n = [] := by
  have : firstParent s r = none := by
    unfold firstParent
    split
    · rfl
    · next x hx => rw [quick_back h r x (get_mem hx)]; rfl
  unfold parents
  rw [this]
  cases n <;> rfl

/-! Runs, for the negative results. -/

/-- Calls in turn. -/
def exec (quick : Bool) (s : St) : List Op → Option St
  | [] => some s
  | op :: ops =>
    match step quick s op with
    | none => none
    | some (s', _) => exec quick s' ops

/-- `Legal`, computed. -/
def legal (s : St) : Op → Bool
  | .create o _ => decide (Fields.get s.recs o = none) && decide (o ≠ 0)
  | .encodeStr o _ => decide (Fields.get s.strs o = none)
  | .encodeBox o _ => decide (Fields.get s.boxes o = none)
  | .setNew r i v => decide (getField s r i = some (.imm 0)) && decide (shown s v ≠ none) &&
      (match v with | .box _ => false | _ => true)
  | .set r i v => (getField s r i).isSome && decide (shown s v ≠ none) &&
      (match v with | .box _ => false | _ => true)
  | .delete r => decide (contents s r ≠ none)
  | .free v => decide (shown s v ≠ none) && (match v with | .box _ => false | _ => true)

theorem legal_Legal {s : St} {op : Op} (h : legal s op = true) : Legal s op := by
  cases op with
  | create o n => simpa [legal, Legal] using h
  | encodeStr o t => simpa [legal, Legal] using h
  | encodeBox o n => simpa [legal, Legal] using h
  | setNew r i v =>
    simp only [legal, Bool.and_eq_true, decide_eq_true_eq] at h
    refine ⟨h.1.1, h.1.2, fun o e => ?_⟩
    subst e; simp at h
  | set r i v =>
    simp only [legal, Bool.and_eq_true, decide_eq_true_eq] at h
    obtain ⟨old, ho⟩ := Option.isSome_iff_exists.mp h.1.1
    refine ⟨⟨old, ho, Or.inr fun o e => ?_⟩, h.1.2⟩
    subst e; simp at h
  | delete r => simpa [legal, Legal] using h
  | free v =>
    simp only [legal, Bool.and_eq_true, decide_eq_true_eq] at h
    refine ⟨h.1, fun o e => ?_⟩
    subst e; simp at h

def allLegal (quick : Bool) (s : St) : List Op → Bool
  | [] => true
  | op :: ops => legal s op &&
    match step quick s op with
    | none => false
    | some (s', _) => allLegal quick s' ops

theorem exec_reach {q : Bool} : ∀ {ops : List Op} {s s' : St}, allLegal q s ops = true → exec q s ops = some s' →
    Reach q Legal s → Reach q Legal s'
  | [], _, _, _, he, h => by cases he; exact h
  | op :: ops, s, s', ha, he, h => by
    simp only [allLegal, Bool.and_eq_true] at ha
    simp only [exec] at he
    cases hs : step q s op with
    | none => rw [hs] at he; cases he
    | some p =>
      obtain ⟨s1, out⟩ := p
      rw [hs] at he
      have h2 := ha.2
      rw [hs] at h2
      exact exec_reach h2 he (.step h (legal_Legal ha.1) hs)

/-- Two records with the same string. -/
def sharing : List Op :=
  [.create 100 1, .create 200 1, .encodeStr 300 "Tallinn", .setNew 100 0 (.str 300), .encodeStr 301 "Tallinn",
    .setNew 200 0 (.str 300)]

/-- Deleting a record destroys the string of another record: its field then cannot be read, and shows a string
that was never stored in it when the place is taken again. -/
theorem C65_delete_destroys_other_record :
    ∃ s s' s'', Reach true Legal s ∧ Legal s (.delete 100) ∧
      contents s 200 = some [some (.text "Tallinn")] ∧
      step true s (.delete 100) = some (s', .code 0) ∧ contents s' 200 = some [none] ∧
      step true s' (.encodeStr 300 "Tartu") = some (s'', .val (.str 300)) ∧
      contents s'' 200 = some [some (.text "Tartu")] := by
  obtain ⟨s, hs⟩ : ∃ s, exec true St.empty sharing = some s := Option.isSome_iff_exists.mp (by decide)
  refine ⟨s, ?_⟩
  have h1 : allLegal true St.empty sharing = true := by decide
  have hr := exec_reach h1 hs .empty
  have : s = ⟨[(300, ⟨"Tallinn", 0⟩)], [], [(200, ⟨[], [.str 300]⟩), (100, ⟨[], [.str 300]⟩)]⟩ := by
    have h2 : exec true St.empty sharing =
      some ⟨[(300, ⟨"Tallinn", 0⟩)], [], [(200, ⟨[], [.str 300]⟩), (100, ⟨[], [.str 300]⟩)]⟩ := by decide
    rw [hs] at h2
    exact Option.some.inj h2
  subst this
  exact ⟨_, _, hr, legal_Legal (by decide), by decide, rfl, by decide, rfl, by decide⟩

/-- wg_free_encoded destroys a string that is in a field, though a string in use should stay
(Db/dbdata.c:1244-1249). -/
theorem C65_free_destroys_string_in_use :
    ∃ s s', Reach true Legal s ∧ Legal s (.free (.str 300)) ∧
      contents s 200 = some [some (.text "Tallinn")] ∧
      step true s (.free (.str 300)) = some (s', .code 0) ∧ contents s' 200 = some [none] := by
  obtain ⟨s, hs⟩ : ∃ s, exec true St.empty sharing = some s := Option.isSome_iff_exists.mp (by decide)
  refine ⟨s, ?_⟩
  have h1 : allLegal true St.empty sharing = true := by decide
  have hr := exec_reach h1 hs .empty
  have : s = ⟨[(300, ⟨"Tallinn", 0⟩)], [], [(200, ⟨[], [.str 300]⟩), (100, ⟨[], [.str 300]⟩)]⟩ := by
    have h2 : exec true St.empty sharing =
      some ⟨[(300, ⟨"Tallinn", 0⟩)], [], [(200, ⟨[], [.str 300]⟩), (100, ⟨[], [.str 300]⟩)]⟩ := by decide
    rw [hs] at h2
    exact Option.some.inj h2
  subst this
  exact ⟨_, hr, legal_Legal (by decide), by decide, rfl, by decide⟩

/-- A record that refers to another. -/
def referring : List Op := [.create 100 1, .create 200 1, .setNew 200 0 (.ref 100)]

/-- A record others refer to is deleted: their fields then cannot be read. -/
theorem C65_delete_leaves_dangling_reference :
    ∃ s s', Reach true Legal s ∧ Legal s (.delete 100) ∧ Referenced (contents s) 100 ∧
      step true s (.delete 100) = some (s', .code 0) ∧ contents s' 200 = some [none] := by
  obtain ⟨s, hs⟩ : ∃ s, exec true St.empty referring = some s := Option.isSome_iff_exists.mp (by decide)
  refine ⟨s, ?_⟩
  have h1 : allLegal true St.empty referring = true := by decide
  have hr := exec_reach h1 hs .empty
  have : s = ⟨[], [], [(200, ⟨[], [.ref 100]⟩), (100, ⟨[], [.imm 0]⟩)]⟩ := by
    have h2 : exec true St.empty referring = some ⟨[], [], [(200, ⟨[], [.ref 100]⟩), (100, ⟨[], [.imm 0]⟩)]⟩ := by
      decide
    rw [hs] at h2
    exact Option.some.inj h2
  subst this
  exact ⟨_, hr, legal_Legal (by decide), ⟨200, [some (.record 100)], by decide, by decide⟩, rfl, by decide⟩

/-- The hypotheses of the `_partial` theorems can be met: records with a shared string, references and a number,
and a deletion. -/
example : ∃ s, Reach true Careful s ∧ contents s 100 = some [some (.text "a"), some (.record 200)] ∧
    contents s 200 = some [some (.text "a")] ∧ contents s 300 = none ∧
    Careful s (.setNew 100 1 (.ref 200)) = False ∧ Careful s (.encodeStr 7 "b") := by
  have h0 : Reach true Careful St.empty := .empty
  have h1 := Reach.step (op := .create 100 2) h0 ⟨⟨by decide, by decide⟩, trivial⟩ rfl
  have h2 := Reach.step (op := .create 200 1) h1 ⟨⟨by decide, by decide⟩, trivial⟩ rfl
  have h3 := Reach.step (op := .create 300 1) h2 ⟨⟨by decide, by decide⟩, trivial⟩ rfl
  have h4 := Reach.step (op := .encodeStr 5 "a") h3 ⟨by show Fields.get _ _ = none; decide, trivial⟩ rfl
  have h5 := Reach.step (op := .setNew 100 0 (.str 5)) h4 ⟨legal_Legal (by decide), trivial⟩ rfl
  have h6 := Reach.step (op := .setNew 200 0 (.str 5)) h5 ⟨legal_Legal (by decide), trivial⟩ rfl
  have h7 := Reach.step (op := .setNew 100 1 (.ref 200)) h6 ⟨legal_Legal (by decide), trivial⟩ rfl
  have h8 := Reach.step (op := .encodeStr 6 "alone") h7 ⟨by show Fields.get _ _ = none; decide, trivial⟩ rfl
  have h9 := Reach.step (op := .setNew 300 0 (.str 6)) h8 ⟨legal_Legal (by decide), trivial⟩ rfl
  have h10 := Reach.step (op := .delete 300) h9 ⟨legal_Legal (by decide), by
    refine ⟨?_, ?_⟩
    · rw [referenced_iff (by decide) (by decide)]; decide
    · intro x hx v hv
      have : x = ⟨[], [.str 6]⟩ :=
        (Option.some.inj (show some (⟨[], [.str 6]⟩ : Rec) = some x from hx)).symm
      subst this
      simp only [List.mem_singleton] at hv
      subst hv
      exact ⟨by simp, fun _ => by decide⟩⟩ rfl
  refine ⟨_, h10, by decide, by decide, by decide, ?_, ⟨by show Fields.get _ _ = none; decide, trivial⟩⟩
  rw [eq_iff_iff, iff_false]
  rintro ⟨⟨h, _⟩, _⟩
  revert h
  decide

/-! ### The same code without QUICK_REASONER -/

/-- Without QUICK_REASONER every call that keeps to the rules does what it should. -/
theorem C65_without_quick_calls_do_what_they_should {s : St} {op : Op} (h : Reach false Legal s) (ho : Legal s op) :
    ∃ s' out, step false s op = some (s', out) ∧ Does s op s' out := by
  obtain ⟨s', out, e, hd, _⟩ := step_ok (q := false) (reach_inv h) ho
  exact ⟨s', out, e, hd⟩

/-- Without QUICK_REASONER every field can be read. -/
theorem C65_without_quick_fields_readable {s : St} (h : Reach false Legal s) {r : Nat} {l : List (Option C)}
    (hc : contents s r = some l) : none ∉ l :=
  readable (q := false) h hc

/-- Without QUICK_REASONER a record keeps what is in it, whatever is done with others. -/
theorem C65_without_quick_record_kept {s s' : St} {ops : List Op} {r : Nat} (h : Reach false Legal s)
    (hr : contents s r ≠ none) (hrun : Runs false Legal s ops s') (ha : ∀ op ∈ ops, Apart r op) :
    contents s' r = contents s r :=
  runs_kept (q := false) hrun h hr ha

/-- Without QUICK_REASONER the string of the example stays. -/
example : ∃ s s', Reach false Legal s ∧ step false s (.delete 100) = some (s', .code 0) ∧
    contents s' 200 = some [some (.text "Tallinn")] := by
  obtain ⟨s, hs⟩ : ∃ s, exec false St.empty sharing = some s := Option.isSome_iff_exists.mp (by decide)
  have h1 : allLegal false St.empty sharing = true := by decide
  have hr := exec_reach h1 hs .empty
  have : s = ⟨[(300, ⟨"Tallinn", 2⟩)], [], [(200, ⟨[], [.str 300]⟩), (100, ⟨[], [.str 300]⟩)]⟩ := by
    have h2 : exec false St.empty sharing =
      some ⟨[(300, ⟨"Tallinn", 2⟩)], [], [(200, ⟨[], [.str 300]⟩), (100, ⟨[], [.str 300]⟩)]⟩ := by decide
    rw [hs] at h2
    exact Option.some.inj h2
  subst this
  exact ⟨_, _, hr, rfl, by decide⟩

theorem zero_free {s : St} (h : Reach false Legal s) : contents s 0 = none := by
  induction h with
  | empty => rfl
  | @step s s' op out hre hr he ih =>
    obtain ⟨s1, out1, e1, hd, _⟩ := step_ok (q := false) (reach_inv (q := false) hre) hr
    rw [he] at e1
    cases e1
    cases op with
    | create o n =>
      have : ¬ 0 = o := fun e => hr.2 e.symm
      rw [hd.2]; unfold upd; rw [if_neg this]; exact ih
    | encodeStr o t => rw [hd.1]; exact ih
    | encodeBox o n => rw [hd.1]; exact ih
    | setNew p i v =>
      rw [hd.2]; unfold upd
      split
      · next e => rw [← e, ih]; rfl
      · exact ih
    | set p i v =>
      rw [hd.2]; unfold upd
      split
      · next e => rw [← e, ih]; rfl
      · exact ih
    | delete p =>
      by_cases h : Referenced (contents s) p
      · rw [(hd.1 h).2]; exact ih
      · rw [(hd.2 h).2]; unfold upd
        split
        · rfl
        · exact ih
    | free v => rw [show contents s' = contents s from hd]; exact ih

theorem nextIn_nodup : ∀ (l1 : List Nat) (a : Nat) (l2 : List Nat), (l1 ++ a :: l2).Nodup → 0 ∉ l2 →
    nextIn (l1 ++ a :: l2) a = l2.head?
  | [], a, [], _, _ => rfl
  | [], a, b :: l2, _, h0 => by
    have : b ≠ 0 := by rintro rfl; exact h0 List.mem_cons_self
    simp [nextIn, this]
  | [c], a, l2, hn, h0 => by
    have hc : ¬ c = a := by
      rintro rfl
      simp at hn
    simp only [List.cons_append, List.nil_append, nextIn, hc, false_and, if_false]
    exact nextIn_nodup [] a l2 (List.nodup_cons.mp hn).2 h0
  | c :: d :: l1, a, l2, hn, h0 => by
    have hc : ¬ c = a := by
      rintro rfl
      simp at hn
    simp only [List.cons_append, nextIn, hc, false_and, if_false]
    exact nextIn_nodup (d :: l1) a l2 (List.nodup_cons.mp hn).2 h0

theorem parents_go {s : St} {r : Nat} {x : Rec} (hx : Fields.get s.recs r = some x) (hn : x.back.Nodup)
    (h0 : 0 ∉ x.back) : ∀ (l2 l1 : List Nat), x.back = l1 ++ l2 → ∀ n, l2.length ≤ n →
      parents.go s r n l2.head? = l2 := by
  intro l2
  induction l2 with
  | nil => intro l1 _ n _; cases n <;> rfl
  | cons a l2 ih =>
    intro l1 e n hlen
    cases n with
    | zero => simp at hlen
    | succ n =>
      simp only [List.head?_cons, parents.go]
      have h1 : nextParent s r a = l2.head? := by
        unfold nextParent
        rw [hx]
        show nextIn x.back a = _
        rw [e]
        rw [e] at hn h0
        exact nextIn_nodup l1 a l2 hn (fun h => h0 (List.mem_append_right _ (List.mem_cons_of_mem _ h)))
      rw [h1, ih (l1 ++ [a]) (by simp [e]) n (by simpa using hlen)]

/-- Without QUICK_REASONER the loop over the parents of a record gives each record that refers to it once, if no
record refers to it twice.
Missing: with a record that refers to it twice the loop does not end. -/
theorem C65_without_quick_parents_partial {s : St} (h : Reach false Legal s) {r : Nat} (hr : contents s r ≠ none)
    (hone : ∀ p x, Fields.get s.recs p = some x → x.fields.count (.ref r) ≤ 1) :
    ∃ k, ∀ n, k ≤ n → (parents s r n).Nodup ∧
      ∀ p, p ∈ parents s r n ↔ ∃ l, contents s p = some l ∧ some (.record r) ∈ l := by
  have hi := reach_inv (q := false) h
  have hg : Fields.get s.recs r ≠ none := by
    intro e
    apply hr
    simp [contents, e]
  obtain ⟨x, hx⟩ := Option.ne_none_iff_exists'.mp hg
  have hcount : ∀ p, x.back.count p = (uses s.recs).count (p, .ref r) := (hi.back.2 r).1 x hx
  have hmem : ∀ p, p ∈ x.back ↔ ∃ l, contents s p = some l ∧ some (.record r) ∈ l := by
    intro p
    rw [← List.count_pos_iff, hcount, List.count_pos_iff, mem_uses hi.back.1]
    constructor
    · rintro ⟨y, hy, hv⟩
      exact ⟨y.fields.map (shown s), by simp [contents, hy], List.mem_map.mpr ⟨_, hv, by simp [shown, hx]⟩⟩
    · rintro ⟨l, hl, hm⟩
      unfold contents at hl
      obtain ⟨y, hy, rfl⟩ := Option.map_eq_some_iff.mp hl
      obtain ⟨v, hv, e⟩ := List.mem_map.mp hm
      refine ⟨y, hy, ?_⟩
      cases v with
      | imm n => simp [shown] at e
      | str o => simp [shown] at e
      | box o => simp [shown] at e
      | ref o =>
        simp only [shown, Option.map_eq_some_iff, C.record.injEq] at e
        obtain ⟨_, _, rfl⟩ := e
        exact hv
  have hn : x.back.Nodup := by
    rw [List.nodup_iff_count]
    intro p
    rw [hcount]
    by_cases hp : (p, V.ref r) ∈ uses s.recs
    · obtain ⟨y, hy, _⟩ := (mem_uses hi.back.1).mp hp
      have h1 := (uses_drop hy).count_eq (p, V.ref r)
      rw [h1, List.count_append]
      have h2 : (uses (Fields.drop s.recs p)).count (p, .ref r) = 0 := by
        rw [List.count_eq_zero]
        intro hc
        obtain ⟨z, hz, _⟩ := (mem_uses (hi.back.1.sublist (keys_drop_sub _ _))).mp hc
        rw [get_drop hi.back.1, if_pos rfl] at hz
        cases hz
      have h3 : (y.fields.map (Prod.mk p)).count (p, .ref r) = y.fields.count (.ref r) :=
        List.count_map_of_injective _ _ (fun a b e => by cases e; rfl) _
      have h4 := hone p y hy
      omega
    · rw [List.count_eq_zero.mpr hp]; omega
  have h0 : 0 ∉ x.back := by
    rw [hmem]
    rintro ⟨l, hl, _⟩
    rw [zero_free h] at hl
    cases hl
  refine ⟨x.back.length, fun n hlen => ?_⟩
  have : parents s r n = x.back := by
    unfold parents
    have hf : firstParent s r = x.back.head? := by unfold firstParent; rw [hx]
    rw [hf]
    exact parents_go hx hn h0 x.back [] rfl n hlen
  rw [this]
  exact ⟨hn, hmem⟩

/-- A record that refers to another in two fields. -/
def twice : List Op := [.create 100 1, .create 200 2, .setNew 200 0 (.ref 100), .setNew 200 1 (.ref 100)]

/-- Without QUICK_REASONER the loop over the parents of a record that another refers to twice gives this other
record again and again. -/
theorem C65_without_quick_parents_endless :
    ∃ s, Reach false Legal s ∧ ∀ n, parents s 100 n = List.replicate n 200 := by
  obtain ⟨s, hs⟩ : ∃ s, exec false St.empty twice = some s := Option.isSome_iff_exists.mp (by decide)
  have h1 : allLegal false St.empty twice = true := by decide
  have hr := exec_reach h1 hs .empty
  refine ⟨s, hr, fun n => ?_⟩
  have hf : firstParent s 100 = some 200 := by
    have : (exec false St.empty twice).bind (fun s => firstParent s 100) = some 200 := by decide
    rw [hs] at this
    exact this
  have hnx : nextParent s 100 200 = some 200 := by
    have : (exec false St.empty twice).bind (fun s => nextParent s 100 200) = some 200 := by decide
    rw [hs] at this
    exact this
  unfold parents
  rw [hf]
  induction n with
  | zero => rfl
  | succ n ih =>
    simp only [parents.go, hnx, List.replicate_succ, ih]

/-- The case of the parents theorem. -/
example : ∃ s, Reach false Legal s ∧ contents s 100 ≠ none ∧ parents s 100 5 = [200] ∧
    ∀ p x, Fields.get s.recs p = some x → x.fields.count (.ref 100) ≤ 1 := by
  obtain ⟨s, hs⟩ : ∃ s, exec false St.empty referring = some s := Option.isSome_iff_exists.mp (by decide)
  have h1 : allLegal false St.empty referring = true := by decide
  have hr := exec_reach h1 hs .empty
  have : s = ⟨[], [], [(200, ⟨[], [.ref 100]⟩), (100, ⟨[200], [.imm 0]⟩)]⟩ := by
    have h2 : exec false St.empty referring =
      some ⟨[], [], [(200, ⟨[], [.ref 100]⟩), (100, ⟨[200], [.imm 0]⟩)]⟩ := by decide
    rw [hs] at h2
    exact Option.some.inj h2
  subst this
  refine ⟨_, hr, by decide, by decide, fun p x hx => ?_⟩
  have := get_mem hx
  simp only [List.mem_cons, Prod.mk.injEq, List.not_mem_nil, or_false] at this
  rcases this with ⟨_, rfl⟩ | ⟨_, rfl⟩ <;> decide

end Gkc.Props.Fd
