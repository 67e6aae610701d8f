import Verif.JsonSpec
/-
The printer writes JSON: composition lemmas, from digits up to lines.
-/
namespace Gkc.Json
open Gkc.Hist (Line Item Rule W)

/-! ### Numbers -/

theorem digit_dig {d : Nat} (h : d < 10) : IsDig (digit d) := by
  rcases (by omega : d = 0 ∨ d = 1 ∨ d = 2 ∨ d = 3 ∨ d = 4 ∨ d = 5 ∨ d = 6 ∨ d = 7 ∨ d = 8 ∨ d = 9) with
    rfl | rfl | rfl | rfl | rfl | rfl | rfl | rfl | rfl | rfl <;> exact ⟨by decide, by decide⟩

theorem digit_zero {d : Nat} (h : d < 10) (e : digit d = '0') : d = 0 := by
  rcases (by omega : d = 0 ∨ d = 1 ∨ d = 2 ∨ d = 3 ∨ d = 4 ∨ d = 5 ∨ d = 6 ∨ d = 7 ∨ d = 8 ∨ d = 9) with
    rfl | rfl | rfl | rfl | rfl | rfl | rfl | rfl | rfl | rfl <;> first | rfl | (exact absurd e (by decide))

theorem dec_small {n : Nat} (h : n < 10) : dec n = [digit n] := by rw [dec, if_pos h]

theorem dec_big {n : Nat} (h : ¬ n < 10) : dec n = dec (n / 10) ++ [digit (n % 10)] := by
  conv => lhs; rw [dec]
  rw [if_neg h]

theorem dec_ne (n : Nat) : dec n ≠ [] := by
  by_cases h : n < 10
  · rw [dec_small h]; simp
  · rw [dec_big h]; simp

theorem dec_dig (n : Nat) : ∀ c ∈ dec n, IsDig c := by
  induction n using Nat.strongRecOn with
  | ind n ih =>
    by_cases h : n < 10
    · rw [dec_small h]
      intro c hc
      rw [List.mem_singleton] at hc
      subst hc
      exact digit_dig h
    · rw [dec_big h]
      intro c hc
      rw [List.mem_append, List.mem_singleton] at hc
      rcases hc with hc | rfl
      · exact ih (n / 10) (by omega) c hc
      · exact digit_dig (by omega)

theorem dec_head (n : Nat) : (dec n).head? = some '0' → dec n = ['0'] := by
  induction n using Nat.strongRecOn with
  | ind n ih =>
    by_cases h : n < 10
    · rw [dec_small h]
      intro hc
      simp only [List.head?_cons, Option.some.injEq] at hc
      rw [hc]
    · rw [dec_big h]
      intro hc
      exfalso
      have h1 : (dec (n / 10)).head? = some '0' := by
        cases hd : dec (n / 10) with
        | nil => exact absurd hd (dec_ne _)
        | cons a r => rw [hd] at hc; simpa using hc
      have h2 := ih (n / 10) (by omega) h1
      by_cases h3 : n / 10 < 10
      · rw [dec_small h3] at h2
        have := digit_zero h3 (by simpa using h2)
        omega
      · rw [dec_big h3] at h2
        have := congrArg List.length h2
        have h4 := dec_ne (n / 10 / 10)
        have h5 : (dec (n / 10 / 10)).length ≠ 0 := fun h => h4 (List.length_eq_zero_iff.1 h)
        simp at this
        exact absurd this h4

theorem dec_int (n : Nat) : IntPart (dec n) := ⟨dec_ne n, dec_dig n, dec_head n⟩

theorem dec_num (n : Nat) : NumOk (dec n) :=
  ⟨[], dec n, [], [], by simp, .inl rfl, dec_int n, .inl rfl, .inl rfl⟩

theorem decInt_num (z : Int) : NumOk (decInt z) := by
  unfold decInt
  split
  · exact ⟨['-'], dec z.natAbs, [], [], by simp, .inr rfl, dec_int _, .inl rfl, .inl rfl⟩
  · exact dec_num _

theorem six_dig (n : Nat) : ∀ c ∈ six n, IsDig c := by
  intro c hc
  simp only [six, List.mem_cons, List.not_mem_nil, or_false] at hc
  rcases hc with rfl | rfl | rfl | rfl | rfl | rfl <;> exact digit_dig (by omega)

theorem dbl_num (s : Bool) (ip fp : Nat) : NumOk ((if s then ['-'] else []) ++ dec ip ++ '.' :: six fp) :=
  ⟨if s then ['-'] else [], dec ip, '.' :: six fp, [], by simp, by cases s <;> simp, dec_int ip,
    .inr ⟨six fp, by simp [six], six_dig fp, rfl⟩, .inl rfl⟩

theorem trunc_int {v : BitVec 64} (h : -2147483648 ≤ v.toInt ∧ v.toInt < 2147483648) :
    (v.truncate 32).toInt = v.toInt := by
  have h1 : (v.truncate 32).toInt = v.toInt.bmod (2 ^ 32) := by
    rw [BitVec.truncate_eq_setWidth, BitVec.toInt_eq_toNat_bmod, BitVec.toInt_eq_toNat_bmod]
    rw [BitVec.toNat_setWidth]
    have := v.isLt
    simp only [Int.bmod]
    omega
  rw [h1]
  simp only [Int.bmod]
  omega

/-! ### Strings -/

theorem raw_plain {s : List Char} (h : ∀ c ∈ s, PlainChar c ∧ c ≠ '"') : StrRaw s s := by
  induction s with
  | nil => exact .nil
  | cons c r ih =>
    obtain ⟨⟨h1, h2⟩, h3⟩ := h c (List.mem_cons_self ..)
    exact .plain h3 h1 h2 (ih (fun x hx => h x (List.mem_cons_of_mem _ hx)))

theorem raw_escq {s : List Char} (h : ∀ c ∈ s, PlainChar c) : StrRaw (escq s) s := by
  induction s with
  | nil => exact .nil
  | cons c r ih =>
    have ih := ih (fun x hx => h x (List.mem_cons_of_mem _ hx))
    obtain ⟨h1, h2⟩ := h c (List.mem_cons_self ..)
    unfold escq
    by_cases hq : c = '"'
    · rw [if_pos hq, hq]
      exact .esc (by decide) ih
    · rw [if_neg hq]
      exact .plain hq h1 h2 ih

theorem raw_append {a b x y : List Char} (h1 : StrRaw a x) (h2 : StrRaw b y) : StrRaw (a ++ b) (x ++ y) := by
  induction h1 with
  | nil => exact h2
  | plain a1 a2 a3 _ ih => exact .plain a1 a2 a3 ih
  | esc a1 _ ih => exact .esc a1 ih
  | uni a1 a2 a3 a4 _ ih => exact .uni a1 a2 a3 a4 ih

theorem g_quoted {r s : List Char} (h : StrRaw r s) : G (quoted r) (.val (.str s)) := .str h

theorem dig_plain {c : Char} (h : IsDig c) : PlainChar c ∧ c ≠ '"' := by
  obtain ⟨h1, h2⟩ := h
  refine ⟨⟨?_, by omega⟩, ?_⟩
  · rintro rfl; revert h2; decide
  · rintro rfl; revert h1; decide

theorem chars_plain {s : List Char} (h : s.all (fun c => decide (c ≠ '\\' ∧ 32 ≤ c.toNat ∧ c ≠ '"')) = true) :
    ∀ c ∈ s, PlainChar c ∧ c ≠ '"' := by
  intro c hc
  have := List.all_eq_true.1 h c hc
  simp only [ne_eq, decide_eq_true_eq] at this
  exact ⟨⟨this.1, this.2.1⟩, this.2.2⟩

theorem ite_chars {p : Prop} [Decidable p] {a b : List Char} (ha : ∀ c ∈ a, PlainChar c ∧ c ≠ '"')
    (hb : ∀ c ∈ b, PlainChar c ∧ c ≠ '"') : ∀ c ∈ (if p then a else b), PlainChar c ∧ c ≠ '"' := by
  split
  · exact ha
  · exact hb

theorem varName_plain (n : Nat) : ∀ c ∈ varName n, PlainChar c ∧ c ≠ '"' := by
  unfold varName
  repeat' apply ite_chars
  all_goals first
    | exact chars_plain (by decide)
    | exact fun c hc => dig_plain (dec_dig _ c hc)

theorem uri_raw {name : List Char} (h : ∀ c ∈ name, PlainChar c) {p : List Char}
    (hp : ∀ c ∈ p, PlainChar c ∧ c ≠ '"') :
    G (if '"' ∈ name then quoted (p ++ escq name) else quoted (p ++ name)) (.val (.str (p ++ name))) := by
  split
  · exact g_quoted (raw_append (raw_plain hp) (raw_escq h))
  · rename_i hq
    refine g_quoted (raw_append (raw_plain hp) (raw_plain fun c hc => ⟨h c hc, ?_⟩))
    rintro rfl
    exact hq hc

theorem minus_plain : ∀ c ∈ ['-'], PlainChar c ∧ c ≠ '"' := by
  intro c hc
  rw [List.mem_singleton] at hc
  subst hc
  exact ⟨⟨by decide, by decide⟩, by decide⟩

/-- symbols which can be signed -/
def Signable (neg : Bool) (s : Sym) : Prop :=
  neg = false ∨ (match s with
    | .uri _ _ => True
    | .str _ => True
    | _ => False)

theorem sign_plain (neg : Bool) : ∀ c ∈ (if neg then ['-'] else ([] : List Char)), PlainChar c ∧ c ≠ '"' := by
  cases neg
  · intro c hc; cases hc
  · exact minus_plain

theorem g_sym {neg : Bool} {s : Sym} (h : s.Plain) (hs : Signable neg s) : G (symText neg s) (.val (symJ neg s)) := by
  cases s with
  | null => exact h.elim
  | int v =>
    show G (decInt (v.truncate 32).toInt) (.val (.num (decInt v.toInt)))
    rw [trunc_int h]
    exact .num (decInt_num _)
  | dbl s ip fp => exact .num (dbl_num s ip fp)
  | nonfinite w => exact h.elim
  | str s =>
    refine g_quoted (raw_append (raw_plain (sign_plain neg)) (.plain (by decide) (by decide) (by decide) (raw_plain h)))
  | uri name pre =>
    cases pre with
    | none =>
      cases neg with
      | true =>
        have := uri_raw (name := name) h minus_plain
        simpa [symText, symJ] using this
      | false =>
        by_cases he : name = emptyName
        · subst he
          have : G (quoted []) (.val (.str [])) := g_quoted .nil
          simpa [symText, symJ, quoted] using this
        · have := uri_raw (name := name) h (p := []) (by intro c hc; cases hc)
          simpa [symText, symJ, he] using this
    | some pre =>
      have hp : ∀ c ∈ (if neg then ['-'] else ([] : List Char)) ++ (if pre = ['#'] then ['#', ':'] else []),
          PlainChar c ∧ c ≠ '"' := by
        intro c hc
        rw [List.mem_append] at hc
        rcases hc with hc | hc
        · exact sign_plain neg c hc
        · split at hc
          · simp only [List.mem_cons, List.not_mem_nil, or_false] at hc
            rcases hc with rfl | rfl <;> exact ⟨⟨by decide, by decide⟩, by decide⟩
          · cases hc
      have := uri_raw (name := name) h hp
      simpa [symText, symJ] using this
  | var n =>
    rcases hs with rfl | hs
    · exact g_quoted (.plain (by decide) (by decide) (by decide)
        (.plain (by decide) (by decide) (by decide) (raw_plain (varName_plain n))))
    · exact hs.elim
  | anon name =>
    rcases hs with rfl | hs
    · subst h
      exact g_quoted (s := []) .nil
    · exact hs.elim

/-! ### Lists -/

theorem g_wsl {w t : List Char} {j : J} (hw : ∀ c ∈ w, IsWs c) (h : G t (.val j)) : G (w ++ t) (.val j) := by
  induction w with
  | nil => exact h
  | cons c r ih => exact .wsl (hw c (List.mem_cons_self ..)) (ih fun x hx => hw x (List.mem_cons_of_mem _ hx))

theorem g_wsr {w t : List Char} {j : J} (hw : ∀ c ∈ w, IsWs c) (h : G t (.val j)) : G (t ++ w) (.val j) := by
  induction w generalizing t with
  | nil => rw [List.append_nil]; exact h
  | cons c r ih =>
    have := ih (fun x hx => hw x (List.mem_cons_of_mem _ hx)) (G.wsr (hw c (List.mem_cons_self ..)) h)
    simpa using this

theorem ws_sp : ∀ c ∈ [' '], IsWs c := by
  intro c hc; rw [List.mem_singleton] at hc; exact .inl hc

theorem ws_nl : ∀ c ∈ ['\n'], IsWs c := by
  intro c hc; rw [List.mem_singleton] at hc; exact .inr (.inl hc)

theorem elems_wsl {w t : List Char} {l : List J} (hw : ∀ c ∈ w, IsWs c) (h : G t (.elems l)) :
    G (w ++ t) (.elems l) := by
  cases h with
  | one h => exact .one (g_wsl hw h)
  | more h1 h2 =>
    rw [← List.append_assoc]
    exact .more (g_wsl hw h1) h2

theorem elems_append {t u : List Char} {l m : List J} (h1 : G t (.elems l)) (h2 : G u (.elems m)) :
    G (t ++ ',' :: u) (.elems (l ++ m)) := by
  generalize hp : Piece.elems l = p at h1
  induction h1 generalizing l with
  | one h => cases hp; exact .more h h2
  | more h3 h4 ih1 ih2 =>
    cases hp
    rw [List.append_assoc, List.cons_append, List.cons_append]
    exact .more h3 (ih2 rfl)
  | _ => cases hp

theorem elems_join {α : Type} {f : α → List Char} {g : α → J} {w : List Char} (hw : ∀ c ∈ w, IsWs c)
    {l : List α} (hne : l ≠ []) (h : ∀ x ∈ l, G (f x) (.val (g x))) :
    G (joinWith (',' :: w) (l.map f)) (.elems (l.map g)) := by
  induction l with
  | nil => exact absurd rfl hne
  | cons a r ih =>
    cases r with
    | nil => exact .one (h a (List.mem_cons_self ..))
    | cons b r =>
      have h1 := ih (by simp) (fun x hx => h x (List.mem_cons_of_mem _ hx))
      have h2 := elems_wsl hw h1
      have h3 := G.more (h a (List.mem_cons_self ..)) h2
      simpa [joinWith] using h3

/-! ### Terms and clauses -/

theorem opWord_none {s : List Char}
    (h : s ≠ ['+'] ∧ s ≠ ['*'] ∧ s ≠ ['-'] ∧ s ≠ ['/'] ∧ s ≠ ['<']) : opWord s = none := by
  obtain ⟨h1, h2, h3, h4, h5⟩ := h
  unfold opWord
  rw [if_neg h1, if_neg h2, if_neg h3, if_neg h4, if_neg h5]

theorem g_fieldSym {s : Sym} (h : s.Plain) (ho : s.NoOp) : G (fieldSym s) (.val (symJ false s)) := by
  have := g_sym (neg := false) h (.inl rfl)
  cases s with
  | uri name pre =>
    show G (match opWord name with | some w => w | none => symText false (.uri name pre)) _
    rw [opWord_none ho]
    exact this
  | _ => exact this

mutual
theorem g_field : ∀ t : PT, t.FieldOk → G (fieldText t) (.val (termJ t))
  | .leaf s, h => by
    unfold PT.FieldOk at h
    unfold fieldText termJ
    exact g_fieldSym h.1 h.2
  | .node hd args, h => by
    unfold PT.FieldOk at h
    obtain ⟨h1, h2, h3⟩ := h
    have a1 := g_field hd h1
    have a2 := g_args args h2 h3
    unfold fieldText termJ
    have := G.arr (G.more a1 a2)
    simpa using this
theorem g_args : ∀ l : List PT, l ≠ [] → FieldsOk l → G (argsText l) (.elems (termsJ l))
  | [], h, _ => absurd rfl h
  | [a], _, h => by
    unfold FieldsOk at h
    have := g_field a h.1
    simp only [argsText, moreText, List.append_nil, termsJ]
    exact .one this
  | a :: b :: r, _, h => by
    unfold FieldsOk at h
    have h1 := g_field a h.1
    have h2 := g_args (b :: r) (by simp) h.2
    have := G.more h1 h2
    simpa [argsText, moreText, termsJ] using this
end

theorem g_term {t : PT} (h : t.Ok) : G (termText t) (.val (termJ t)) := by
  cases t with
  | leaf s =>
    unfold termText termJ
    exact g_sym h (.inl rfl)
  | node hd args =>
    have h' : (PT.node hd args).FieldOk := by
      unfold PT.FieldOk
      exact h
    have := g_field _ h'
    unfold fieldText at this
    unfold termText
    exact this

theorem g_lit {l : PLit} (h : l.Ok) : G (litText l) (.val (litJ l)) := by
  obtain ⟨h1, h2, h3⟩ := h
  have hs : G (symText l.neg l.head) (.val (symJ l.neg l.head)) := by
    refine g_sym h2 (.inr ?_)
    revert h1
    cases l.head <;> exact id
  unfold litText litJ
  by_cases ha : l.args = []
  · rw [if_pos ha, ha, List.append_nil]
    exact .arr (.one hs)
  · rw [if_neg ha]
    have := elems_join (f := termText) (g := termJ) (w := []) (by intro c hc; cases hc) ha
      (fun t ht => g_term (h3 t ht))
    exact .arr (.more hs this)

theorem g_clause {c : List PLit} (h : ∀ l ∈ c, l.Ok) : G (clauseText c) (.val (clauseJ c)) := by
  unfold clauseText clauseJ
  cases c with
  | nil => exact .arr0 (w := []) (by intro c hc; cases hc)
  | cons a r =>
    exact .arr (elems_join (w := [' ']) ws_sp (by simp) (fun l hl => g_lit (h l hl)))

theorem g_cl {e : Env} {cl : Option Nat} (h : ∀ c, cl = some c → ∀ x ∈ e.clause c, x.Ok) :
    G (clText e cl) (.val (clJ e cl)) := by
  cases cl with
  | none => exact .fls
  | some c => exact g_clause (h c rfl)

/-! ### Lines -/

theorem elems_commas {ps : List Nat} {t : List Char} {l : List J} (h : G t (.elems l)) :
    G (t ++ ps.flatMap (fun p => ',' :: dec p)) (.elems (l ++ ps.map (fun p => .num (dec p)))) := by
  induction ps generalizing t l with
  | nil => simpa using h
  | cons p r ih =>
    have := ih (elems_append h (.one (.num (dec_num p))))
    simpa using this

theorem elems_flat {α : Type} {f : α → List Char} {g : α → J} {l : List α}
    (hf : ∀ x ∈ l, G (f x) (.val (g x))) {t : List Char} {js : List J} (h : G t (.elems js)) :
    G (t ++ l.flatMap (fun x => ", ".toList ++ f x)) (.elems (js ++ l.map g)) := by
  induction l generalizing t js with
  | nil => simpa using h
  | cons a r ih =>
    have h1 : G (' ' :: f a) (.val (g a)) := .wsl (.inl rfl) (hf a (List.mem_cons_self ..))
    have := ih (fun x hx => hf x (List.mem_cons_of_mem _ hx)) (elems_append h (.one h1))
    simpa using this

theorem g_item {e : Env} {i : Item} (h : ItemOk e i) : G (itemText e i) (.val (itemJ e i)) := by
  cases i with
  | ref n ps side =>
    have h1 : G (dec n) (.elems [.num (dec n)]) := .one (.num (dec_num n))
    have h2 := elems_commas (ps := ps) h1
    have hL : G ['"', 'L', '"'] (.val (.str ['L'])) := g_quoted (.plain (by decide) (by decide) (by decide) .nil)
    have hR : G ['"', 'R', '"'] (.val (.str ['R'])) := g_quoted (.plain (by decide) (by decide) (by decide) .nil)
    cases side with
    | none =>
      cases ps with
      | nil => exact .num (dec_num n)
      | cons p r =>
        have := G.arr h2
        simpa [itemText, itemJ] using this
    | some b =>
      cases b with
      | true =>
        have := G.arr (elems_append h2 (.one hL))
        simpa [itemText, itemJ] using this
      | false =>
        have := G.arr (elems_append h2 (.one hR))
        simpa [itemText, itemJ] using this
  | term w => exact g_term h
  | subst v w =>
    have h1 : G (quoted ('V' :: dec v)) (.val (.str ('V' :: dec v))) :=
      g_quoted (.plain (by decide) (by decide) (by decide) (raw_plain fun c hc => dig_plain (dec_dig v c hc)))
    have := G.arr (G.more h1 (.one (g_term h)))
    simpa [itemText, itemJ, quoted] using this

theorem letters_raw {s : List Char} (h : s.all (fun c => decide (c ≠ '\\' ∧ 32 ≤ c.toNat ∧ c ≠ '"')) = true) :
    StrRaw s s := raw_plain (chars_plain h)

theorem rule_raw (r : Rule) : StrRaw (ruleText r) (ruleText r) := by
  cases r <;> exact letters_raw (by decide)

theorem role_raw {p : Nat} {r : List Char} (h : roleText p = some r) : StrRaw r r := by
  unfold roleText at h
  repeat' split at h
  all_goals first
    | (cases h; exact letters_raw (by decide))
    | cases h

/-- the list with the rule is complete up to its closing bracket, which the end text supplies -/
theorem line_shape {e : Env} {l : Line} {t : List Char} {js : List J}
    (ht : G (quoted (ruleText l.rule) ++ t) (.elems js))
    (hc : ∀ c, l.cl = some c → ∀ x ∈ e.clause c, x.Ok) :
    G (lineHead l ++ t ++ "], ".toList ++ clText e l.cl ++ [']'])
      (.val (.arr [.num (dec l.num), .arr js, clJ e l.cl])) := by
  have h1 : G (' ' :: clText e l.cl) (.val (clJ e l.cl)) := .wsl (.inl rfl) (g_cl hc)
  have h2 : G (' ' :: '[' :: (quoted (ruleText l.rule) ++ t ++ [']'])) (.val (.arr js)) := .wsl (.inl rfl) (.arr ht)
  have h3 := G.wsl (c := '\n') (.inr (.inl rfl)) (G.arr (G.more (.num (dec_num l.num)) (G.more h2 (.one h1))))
  simpa [lineHead] using h3

/-- the same with the priority -/
theorem line_close {e : Env} {l : Line} {t : List Char} {js : List J} {plain : List Char}
    (ht : G (quoted (ruleText l.rule) ++ t) (.elems js))
    (hc : ∀ c, l.cl = some c → ∀ x ∈ e.clause c, x.Ok) (hp : e.extra = true ∨ plain = "], ".toList) :
    G (lineHead l ++ t ++ closeText e l plain ++ clText e l.cl ++ [']'])
      (.val (.arr [.num (dec l.num), .arr (js ++ prioJ e l), clJ e l.cl])) := by
  unfold closeText prioJ
  cases he : e.extra with
  | false =>
    rw [he] at hp
    simp only [Bool.false_eq_true, false_or] at hp
    subst hp
    simpa using line_shape ht hc
  | true =>
    simp only [if_true]
    unfold extraText
    cases hr : roleText (e.prio l) with
    | some r =>
      have h1 : G (' ' :: quoted r) (.val (.str r)) := .wsl (.inl rfl) (g_quoted (role_raw hr))
      have h2 := elems_append ht (.one h1)
      have := line_shape (e := e) (l := l) (t := t ++ ", ".toList ++ quoted r) (by simpa using h2) hc
      simpa using this
    | none =>
      by_cases h0 : e.prio l = 0
      · simpa [h0] using line_shape ht hc
      · have h1 : G (' ' :: quoted ['d', 'p']) (.val (.str ['d', 'p'])) :=
          .wsl (.inl rfl) (g_quoted (letters_raw (by decide)))
        have h2 : G (' ' :: dec (e.prio l)) (.val (.num (dec (e.prio l)))) := .wsl (.inl rfl) (.num (dec_num _))
        have h3 := elems_append ht (.more h1 (.one h2))
        have := line_shape (e := e) (l := l) (t := t ++ ", \"dp\", ".toList ++ dec (e.prio l))
          (by simpa [quoted] using h3) hc
        simpa [h0] using this

/-- a rule with premises -/
theorem line_items {e : Env} {l : Line} {plain : List Char} (hne : l.items ≠ []) (hi : ∀ i ∈ l.items, ItemOk e i)
    (hc : ∀ c, l.cl = some c → ∀ x ∈ e.clause c, x.Ok) (hp : e.extra = true ∨ plain = "], ".toList) :
    G (lineHead l ++ ", ".toList ++ joinWith ", ".toList (l.items.map (itemText e)) ++ closeText e l plain ++
        clText e l.cl ++ [']'])
      (.val (.arr [.num (dec l.num), .arr (.str (ruleText l.rule) :: (l.items.map (itemJ e) ++ prioJ e l)),
        clJ e l.cl])) := by
  have h1 : G (quoted (ruleText l.rule)) (.val (.str (ruleText l.rule))) := g_quoted (rule_raw _)
  have h2 := elems_join (f := itemText e) (g := itemJ e) (w := [' ']) ws_sp hne (fun i h => g_item (hi i h))
  have h3 : G (quoted (ruleText l.rule) ++ (", ".toList ++ joinWith ", ".toList (l.items.map (itemText e))))
      (.elems (.str (ruleText l.rule) :: l.items.map (itemJ e))) := G.more h1 (elems_wsl ws_sp h2)
  have := line_close h3 hc hp
  rw [← List.append_assoc] at this
  exact this

theorem g_line {e : Env} {l : Line} (h : LineOk e l) : G (lineText e l) (.val (lineJ e l)) := by
  obtain ⟨hc, hi, hr⟩ := h
  have h1 : G (quoted (ruleText l.rule)) (.val (.str (ruleText l.rule))) := g_quoted (rule_raw _)
  obtain ⟨num, rule, items, cl⟩ := l
  cases rule with
  | input =>
    simp only at hr
    unfold lineText lineJ
    simp only
    have key : ∀ (t : List Char) (js : List J),
        G (quoted (ruleText .input) ++ t) (.elems (.str (ruleText .input) :: js)) →
        G (lineHead ⟨num, .input, items, cl⟩ ++ t ++ closeText e ⟨num, .input, items, cl⟩ "], ".toList ++
            clText e cl ++ [']'])
          (.val (.arr [.num (dec num), .arr (.str (ruleText .input) :: (js ++ prioJ e ⟨num, .input, items, cl⟩)),
            clJ e cl])) :=
      fun t js ht => line_close (e := e) (l := ⟨num, .input, items, cl⟩) ht hc (.inr rfl)
    cases hn : e.name ⟨num, .input, items, cl⟩ with
    | none =>
      have := key [] [] (by simpa using G.one h1)
      simpa using this
    | str s =>
      rw [hn] at hr
      refine key _ [.str s] ?_
      have h2 : G (' ' :: quoted s) (.val (.str s)) := .wsl (.inl rfl) (g_quoted (raw_plain hr))
      exact G.more h1 (.one h2)
    | int v =>
      rw [hn] at hr
      refine key _ [.num (decInt v.toInt)] ?_
      show G (quoted (ruleText .input) ++ ',' :: decInt (v.truncate 32).toInt) _
      rw [trunc_int hr]
      exact G.more h1 (.one (.num (decInt_num _)))
  | arithinst =>
    simp only at hr
    cases items with
    | nil => exact absurd rfl hr
    | cons p rest =>
      unfold lineText lineJ
      simp only [List.take_succ_cons, List.take_zero, List.drop_succ_cons, List.drop_zero, List.map_cons, List.map_nil]
      have hp : G (' ' :: itemText e p) (.val (itemJ e p)) := .wsl (.inl rfl) (g_item (hi p (List.mem_cons_self ..)))
      have hs : G (' ' :: '[' :: (joinWith [','] ((rest.takeWhile isSubst).map (itemText e)) ++ [']']))
          (.val (.arr ((rest.takeWhile isSubst).map (itemJ e)))) := by
        refine .wsl (.inl rfl) ?_
        by_cases hne : rest.takeWhile isSubst = []
        · rw [hne]
          exact .arr0 (w := []) (by intro c hc; cases hc)
        · exact .arr (elems_join (w := []) (by intro c hc; cases hc) hne
            (fun i h => g_item (hi i (List.mem_cons_of_mem _ ((List.takeWhile_prefix _).subset h)))))
      have hd := elems_flat (f := itemText e) (g := itemJ e) (l := rest.dropWhile isSubst)
        (fun i h => g_item (hi i (List.mem_cons_of_mem _ ((List.dropWhile_suffix _).subset h))))
        (G.more h1 (G.more hp (.one hs)))
      have := line_shape (e := e) (l := ⟨num, .arithinst, p :: rest, cl⟩)
        (t := ", ".toList ++ itemText e p ++ ", [".toList ++
          joinWith [','] ((rest.takeWhile isSubst).map (itemText e)) ++ "]".toList ++
          ((rest.dropWhile isSubst).flatMap (fun i => ", ".toList ++ itemText e i))) (by simpa using hd) hc
      simpa using this
  | extprop => exact hr.elim
  | unknown => exact hr.elim
  | merge => exact line_items (e := e) (l := ⟨num, .merge, items, cl⟩) hr.2 hi hc (.inl hr.1)
  | inst => exact line_items (e := e) (l := ⟨num, .inst, items, cl⟩) hr.2 hi hc (.inl hr.1)
  | mp => exact line_items (e := e) (l := ⟨num, .mp, items, cl⟩) hr hi hc (.inr rfl)
  | instgen => exact line_items (e := e) (l := ⟨num, .instgen, items, cl⟩) hr hi hc (.inr rfl)
  | fmp => exact line_items (e := e) (l := ⟨num, .fmp, items, cl⟩) hr hi hc (.inr rfl)
  | refl => exact line_items (e := e) (l := ⟨num, .refl, items, cl⟩) hr hi hc (.inr rfl)
  | para => exact line_items (e := e) (l := ⟨num, .para, items, cl⟩) hr hi hc (.inr rfl)
  | simp => exact line_items (e := e) (l := ⟨num, .simp, items, cl⟩) hr hi hc (.inr rfl)

end Gkc.Json
