import Verif.HashKeyLemmas
/-
C70: a hash index gives exactly the rows with the given values.

Rows are added and removed in any order; the spec is the list of the rows that are in the index.
-/
namespace Gkc.Props.Hx
open Gkc.Hx

/-- a row comes or goes -/
inductive Ev where
  | add (r : Nat) (cols : List Col)
  | del (r : Nat) (cols : List Col)

/-- the rows that are there, with their columns -/
def content : List Ev → List (Nat × List Col)
  | [] => []
  | .add r c :: es => (r, c) :: content es
  | .del r c :: es => (content es).erase (r, c)

/-- only rows that are there go, with the columns they came with (the last event is the first of the list) -/
def Proper : List Ev → Prop
  | [] => True
  | .add _ _ :: es => Proper es
  | .del r c :: es => (r, c) ∈ content es ∧ Proper es

/-- a column has this value; in an index for JSON an array has the values of its members -/
def Shows (json : Bool) : Col → Val → Prop
  | .val w, v => v = w
  | .arr off l, v => if json then v ∈ l else v = .record off

/-- the columns of an event -/
def Ev.cols : Ev → List Col
  | .add _ c => c
  | .del _ c => c

/-- what happens to the index; `none` if an operation reports an error -/
def run (json : Bool) (size : Nat) : List Ev → Option Table
  | [] => some (create size)
  | .add r c :: es => match run json size es with
    | none => none
    | some t => if (addRow json t r c).2 = 0 then some (addRow json t r c).1 else none
  | .del r c :: es => match run json size es with
    | none => none
    | some t => if (removeRow json t r c).2 = 0 then some (removeRow json t r c).1 else none

/-- all values of all columns are such -/
def All (json : Bool) (P : Val → Prop) (es : List Ev) : Prop := ∀ e ∈ es, ∀ c ∈ e.cols, ∀ v, Shows json c v → P v

/-- how often a key is there for a row -/
def tot (json : Bool) (l : List (Nat × List Col)) (k : List UInt8) (r : Nat) : Nat :=
  (l.map fun e => if e.1 = r then (keys json e.2 []).count k else 0).sum

theorem shows_iff {json : Bool} {c : Col} {v : Val} : Shows json c v ↔ v ∈ members json c := by
  cases c with
  | val w => simp [Shows, members]
  | arr off l => cases json <;> simp [Shows, members]

theorem content_mem : ∀ {es : List Ev} {r : Nat} {c : List Col}, (r, c) ∈ content es → ∃ e ∈ es, e.cols = c
  | .add r' c' :: es, r, c, h => by
    simp only [content, List.mem_cons] at h
    rcases h with h | h
    · injection h with h1 h2
      exact ⟨_, List.mem_cons_self .., h2.symm⟩
    · obtain ⟨e, he, h⟩ := content_mem h; exact ⟨e, List.mem_cons_of_mem _ he, h⟩
  | .del r' c' :: es, r, c, h => by
    obtain ⟨e, he, h⟩ := content_mem (List.mem_of_mem_erase h)
    exact ⟨e, List.mem_cons_of_mem _ he, h⟩

theorem sum_erase {α : Type} [BEq α] [LawfulBEq α] (f : α → Nat) {a : α} {l : List α} (h : a ∈ l) :
    f a + ((l.erase a).map f).sum = (l.map f).sum := by
  rw [((List.perm_cons_erase h).map f).sum_eq]; simp

theorem run_ok (json : Bool) (size : Nat) : ∀ es : List Ev, Proper es → All json (fun v => (field v).isSome) es →
    ∃ t, run json size es = some t ∧ Inv t ∧ ∀ k r, (find t k).count r = tot json (content es) k r
  | [], _, _ => ⟨_, rfl, inv_create size, fun k r => by simp [find_create, content, tot]⟩
  | .add r c :: es, hp, ha => by
    obtain ⟨t, h1, h2, h3⟩ := run_ok json size es hp (fun e he => ha e (List.mem_cons_of_mem _ he))
    have hh := ha _ (List.mem_cons_self ..)
    have heq : addRow json t r c = _ := recurse_eq _ json c [] t (fun x hx v hv => hh x hx v (shows_iff.2 hv))
    obtain ⟨g1, g2, g3⟩ := run_store r (keys json c []) t h2
    rw [← heq] at g1 g2 g3
    refine ⟨_, by simp only [run, h1, g1, if_true], g2, fun k r' => ?_⟩
    rw [g3, h3]
    simp only [tot, content, List.map_cons, List.sum_cons]
    omega
  | .del r c :: es, hp, ha => by
    obtain ⟨t, h1, h2, h3⟩ := run_ok json size es hp.2 (fun e he => ha e (List.mem_cons_of_mem _ he))
    have hh := ha _ (List.mem_cons_self ..)
    have heq : removeRow json t r c = _ := recurse_eq _ json c [] t (fun x hx v hv => hh x hx v (shows_iff.2 hv))
    have hsum : ∀ k r', (if r = r' then (keys json c []).count k else 0) + tot json ((content es).erase (r, c)) k r' =
        tot json (content es) k r' := fun k r' =>
      sum_erase (fun e : Nat × List Col => if e.1 = r' then (keys json e.2 []).count k else 0) hp.1
    obtain ⟨g1, g2, g3⟩ := run_remove r (keys json c []) t h2 (fun k => by
      have := hsum k r; simp only [if_true] at this; rw [h3]; omega)
    rw [← heq] at g1 g2 g3
    refine ⟨_, by simp only [run, h1, g1, if_true], g2, fun k r' => ?_⟩
    have := g3 k r'
    rw [h3] at this
    have h' := hsum k r'
    simp only [content]
    omega

theorem tot_pos {json : Bool} {l : List (Nat × List Col)} {k : List UInt8} {r : Nat} :
    0 < tot json l k r ↔ ∃ c, (r, c) ∈ l ∧ k ∈ keys json c [] := by
  induction l with
  | nil => simp [tot]
  | cons e l ih =>
    obtain ⟨x, c⟩ := e
    have : tot json ((x, c) :: l) k r = (if x = r then (keys json c []).count k else 0) + tot json l k r := by
      simp [tot]
    rw [this, Nat.add_pos_iff_pos_or_pos, ih]
    constructor
    · rintro (h | ⟨c', h1, h2⟩)
      · by_cases hx : x = r
        · subst hx
          simp only [if_true] at h
          exact ⟨c, List.mem_cons_self .., List.count_pos_iff.1 h⟩
        · simp [hx] at h
      · exact ⟨c', List.mem_cons_of_mem _ h1, h2⟩
    · rintro ⟨c', h1, h2⟩
      rcases List.mem_cons.1 h1 with h | h
      · injection h with e1 e2
        subst e1; subst e2
        exact .inl (by simpa using List.count_pos_iff.2 h2)
      · exact .inr ⟨c', h, h2⟩

/-- C70: whatever rows were added to the index and removed from it, no operation fails, and a search gives exactly the rows that are there and
have the given values; in an index for JSON, a column with an array has the value if one of its members is the value.

Missing: values that are not `Plain` (see the examples below). -/
theorem C70_exact_partial (json : Bool) (size : Nat) (es : List Ev) (vals : List Val) (hp : Proper es) (ha : All json Plain es)
    (hv : ∀ v ∈ vals, Plain v) :
    ∃ t l, run json size es = some t ∧ search t vals = some l ∧
      ∀ r, r ∈ l ↔ ∃ cols, (r, cols) ∈ content es ∧ List.Forall₂ (Shows json) cols vals := by
  obtain ⟨t, h1, -, h3⟩ := run_ok json size es hp (fun e he c hc v hs => plain_hashable (ha e he c hc v hs))
  refine ⟨t, _, h1, search_eq t vals (fun v h => plain_hashable (hv v h)), fun r => ?_⟩
  rw [← List.count_pos_iff, h3, tot_pos]
  refine exists_congr fun cols => and_congr_right fun hc => ?_
  rw [mem_keys]
  constructor
  · rintro ⟨vals', hf, hk⟩
    obtain ⟨e, he, rfl⟩ := content_mem hc
    have hpl : ∀ v ∈ vals', Plain v := by
      intro v hv'
      obtain ⟨c, hc', hm⟩ : ∃ c ∈ e.cols, v ∈ members json c := by
        clear hk hc
        generalize e.cols = cs at hf
        induction hf with
        | nil => cases hv'
        | cons h _ ih =>
          rcases List.mem_cons.1 hv' with rfl | h'
          · exact ⟨_, List.mem_cons_self .., h⟩
          · obtain ⟨c, hc, hm⟩ := ih h'
            exact ⟨c, List.mem_cons_of_mem _ hc, hm⟩
      exact ha e he c hc' v (shows_iff.2 hm)
    rw [← key_inj hpl hv hk]
    exact hf.imp fun _ _ h => shows_iff.2 h
  · intro h
    exact ⟨vals, h.imp fun _ _ h => shows_iff.1 h, rfl⟩

/-- C70: in an index that does not look into arrays each row is given as often as it is there -/
theorem C70_once_partial (size : Nat) (es : List Ev) (vals : List Val) (hp : Proper es) (ha : All false Plain es)
    (hv : ∀ v ∈ vals, Plain v) :
    ∃ t l, run false size es = some t ∧ search t vals = some l ∧
      l.Perm (((content es).filter fun e => e.2.map Col.word = vals).map Prod.fst) := by
  obtain ⟨t, h1, -, h3⟩ := run_ok false size es hp (fun e he c hc v hs => plain_hashable (ha e he c hc v hs))
  refine ⟨t, _, h1, search_eq t vals (fun v h => plain_hashable (hv v h)), List.perm_iff_count.2 fun r => ?_⟩
  rw [h3]
  have hpl : ∀ e ∈ content es, ∀ v ∈ e.2.map Col.word, Plain v := by
    intro e he v hv'
    obtain ⟨c, hc, rfl⟩ := List.mem_map.1 hv'
    obtain ⟨ev, hev, hcol⟩ := content_mem (r := e.1) (c := e.2) he
    refine ha ev hev c (by rw [hcol]; exact hc) _ ?_
    cases c <;> simp [Shows, Col.word]
  generalize content es = cs at hpl
  induction cs with
  | nil => simp [tot]
  | cons e cs ih =>
    have h := ih fun e he => hpl e (List.mem_cons_of_mem _ he)
    have he : tot false (e :: cs) (key vals []) r =
        (if e.1 = r then (keys false e.2 []).count (key vals []) else 0) + tot false cs (key vals []) r := by simp [tot]
    rw [he, h, keys_false]
    by_cases hw : e.2.map Col.word = vals
    · simp only [List.filter_cons, hw, decide_true, if_true, List.map_cons, List.count_cons, List.count_nil]
      simp only [beq_iff_eq, beq_self_eq_true, if_true, Nat.zero_add]
      omega
    · have hk : key (e.2.map Col.word) [] ≠ key vals [] := fun hk => hw (key_inj (hpl e (List.mem_cons_self ..)) hv hk)
      simp [hw, hk]

/-- C70: no row is missed, whatever the values, as long as all of them can be hashed -/
theorem C70_none_missed (json : Bool) (size : Nat) (es : List Ev) (vals : List Val) (hp : Proper es)
    (ha : All json (fun v => (field v).isSome) es) (hv : ∀ v ∈ vals, (field v).isSome) :
    ∃ t l, run json size es = some t ∧ search t vals = some l ∧
      ∀ r cols, (r, cols) ∈ content es → List.Forall₂ (Shows json) cols vals → r ∈ l := by
  obtain ⟨t, h1, -, h3⟩ := run_ok json size es hp ha
  refine ⟨t, _, h1, search_eq t vals hv, fun r cols hc hf => ?_⟩
  rw [← List.count_pos_iff, h3, tot_pos]
  exact ⟨cols, hc, mem_keys.2 ⟨vals, hf.imp fun _ _ h => shows_iff.1 h, rfl⟩⟩

/-- only blobs and anonymous constants cannot be hashed -/
theorem C70_hashable (v : Val) : (field v).isSome ↔ (∀ s, v ≠ .blob s) ∧ ∀ n, v ≠ .anon n := by
  cases v <;> simp [field]

/-- the text as bytes -/
def b (s : String) : List UInt8 := s.toUTF8.toList

/-- what a search gives after the events -/
def after (json : Bool) (es : List Ev) (vals : List Val) : Option (List Nat) := (run json 10000 es).bind fun t => search t vals

/-- some rows: a text and a number, then an array in the second column -/
def someEvents : List Ev :=
  [.del 8 [.val (.str (b "a") none), .val (.int 1)], .add 32 [.val (.str (b "a") none), .arr 400 [.int 1, .int 2]],
   .add 24 [.val (.uri (b "x") (some (b "p"))), .val .null], .add 16 [.val (.str (b "a") none), .val (.int 1)],
   .add 8 [.val (.str (b "a") none), .val (.int 1)]]

example : Proper someEvents ∧ All true Plain someEvents ∧ ∀ v ∈ [Val.str (b "a") none, Val.int 1], Plain v := by
  refine ⟨⟨(by decide +kernel : (8, [Col.val (.str (b "a") none), .val (.int 1)]) ∈ content someEvents.tail), trivial⟩, ?_, ?_⟩
  · intro e he c hc v hs
    rw [shows_iff] at hs
    simp only [someEvents, List.mem_cons, List.not_mem_nil, or_false] at he
    rcases he with rfl | rfl | rfl | rfl | rfl <;> simp only [Ev.cols, List.mem_cons, List.not_mem_nil, or_false] at hc <;>
      rcases hc with rfl | rfl <;> simp only [members, if_true, List.mem_cons, List.not_mem_nil, or_false] at hs
    all_goals first
      | (subst hs; simp only [Plain]; decide +kernel)
      | (rcases hs with rfl | rfl <;> simp only [Plain] <;> decide +kernel)
  · intro v hv
    simp only [List.mem_cons, List.not_mem_nil, or_false] at hv
    rcases hv with rfl | rfl <;> simp only [Plain] <;> decide +kernel
example : after true someEvents [.str (b "a") none, .int 1] = some [32, 16] := by decide +kernel
example : after true someEvents [.str (b "a") none, .int 2] = some [32] := by decide +kernel
example : after true someEvents [.str (b "a") none, .record 400] = some [] := by decide +kernel
example : after false someEvents [.str (b "a") none, .record 400] = some [32] := by decide +kernel
example : after false someEvents [.uri (b "x") (some (b "p")), .null] = some [24] := by decide +kernel

/-- C70 is false for integers that are not C ints: they are cut to 32 bits -/
theorem C70_large_integers : after false [.add 8 [.val (.int (2 ^ 32 + 5))]] [.int 5] = some [8] := by decide +kernel

/-- C70 is false for strings with a language, which is left out -/
theorem C70_language : after false [.add 8 [.val (.str (b "chat") (some (b "fr")))]] [.str (b "chat") (some (b "en"))] = some [8] := by
  decide +kernel

/-- C70 is false for two columns with URIs of which one begins with the byte 7 -/
theorem C70_uri_prefix : after false [.add 8 [.val (.uri (b "p") none), .val (.uri [7, 114] (some (b "q")))]]
    [.uri [7, 113] (some (b "p")), .uri (b "r") none] = some [8] := by decide +kernel

/-- the two zeros are different: here a row is missed that a comparison of the values would give (C52) -/
theorem C70_two_zeros : after false [.add 8 [.val (.double (1 <<< 63))]] [.double 0] = some [] := by decide +kernel

/-- a row with a blob cannot be added, and the operation says so -/
theorem C70_blob : run false 10000 [.add 8 [.val (.blob (b "x"))]] = none ∧ ∀ t, search t [.blob (b "x")] = none := by
  exact ⟨rfl, fun t => rfl⟩

end Gkc.Props.Hx
