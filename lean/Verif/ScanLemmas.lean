import Verif.ParseSpec
/-
The scanner on texts of tokens.
-/
namespace Gkc.Ps
open Gkc.Ps.Spec

/-- no transition -/
def jam (s cl : Nat) : Bool := at' t_base (delta 4 s cl) == 138 && at' t_accept (delta 4 s cl) == 0

/-- the class of a character, as a function of its number -/
def ecn (n : Nat) : Nat := if n = 0 then 1 else if n < 128 then at' t_ec n else 25

/-- a fact about classes of characters follows from its cases -/
theorem ec_of {Q : Nat → Prop} (P : Nat → Prop) (c : Char) (hP : P c.toNat) (h : ∀ n < 128, P n → Q (ecn n)) (h2 : P c.toNat → 128 ≤ c.toNat → Q 25) : Q (ec c) := by
  by_cases hc : c.toNat < 128
  · exact h _ hc hP
  · have : ec c = 25 := by unfold ec; rw [if_neg (by omega), if_neg hc]
    rw [this]; exact h2 hP (by omega)

theorem not_mem {c : Char} {l : List Char} (h : c ∉ l) : c.toNat ∉ l.map Char.toNat := by
  simp only [List.mem_map, not_exists, not_and]
  intro x hx he
  exact h (Char.toNat_inj.1 he ▸ hx)

theorem scan_stop {s : Nat} {r : List Char} {n : Nat} {last : Nat × Nat} (ha : at' t_accept s ≠ 0)
    (h : ∀ c, r.head? = some c → jam s (ec c) = true) : scan s r n last = (at' t_accept s, n) := by
  unfold scan
  cases r with
  | nil => simp [ha]
  | cons c cs =>
    have := h c rfl
    simp only [jam, Bool.and_eq_true, beq_iff_eq] at this
    simp [ha, this]

theorem scan_next {s s' : Nat} {c : Char} {r : List Char} {n : Nat} {last : Nat × Nat} (h : delta 4 s (ec c) = s') (hb : at' t_base s' ≠ 138) :
    scan s (c :: r) n last = scan s' r (n + 1) (if at' t_accept s ≠ 0 then (at' t_accept s, n) else last) := by
  rw [scan]
  simp [h, hb]

theorem scan_last {s s' : Nat} {c : Char} {r : List Char} {n : Nat} {last : Nat × Nat} (h : delta 4 s (ec c) = s') (hb : at' t_base s' = 138)
    (ha : at' t_accept s' ≠ 0) : scan s (c :: r) n last = (at' t_accept s', n + 1) := by
  rw [scan]
  simp [h, hb, ha]

/-- a loop of the automaton -/
theorem scan_loop {St : List Nat} {a : Nat} (ha : a ≠ 0) (hacc : ∀ s ∈ St, at' t_accept s = a) {r : List Char}
    (hstop : ∀ c, r.head? = some c → ∀ s ∈ St, jam s (ec c) = true) :
    ∀ (cs : List Char), (∀ c ∈ cs, ∀ s ∈ St, at' t_base (delta 4 s (ec c)) ≠ 138 ∧ delta 4 s (ec c) ∈ St) → ∀ {s : Nat}, s ∈ St →
      ∀ (n : Nat) (last : Nat × Nat), scan s (cs ++ r) n last = (a, n + cs.length)
  | [], _, s, hs, n, last => by
    have := scan_stop (s := s) (r := r) (n := n) (last := last) (by rw [hacc s hs]; exact ha) (fun c hc => hstop c hc s hs)
    simpa [hacc s hs] using this
  | c :: cs, hcs, s, hs, n, last => by
    have hc := hcs c (by simp) s hs
    rw [List.cons_append, scan_next rfl hc.1, scan_loop ha hacc hstop cs (fun x hx => hcs x (by simp [hx])) hc.2]
    simp; omega

theorem letter_cls {c : Char} (h : letter c) : ec c ∈ [25, 30, 31] := by
  refine ec_of (fun n => (65 ≤ n ∧ n ≤ 90 ∨ 97 ≤ n ∧ n ≤ 122 ∨ 128 ≤ n)) (Q := (· ∈ [25, 30, 31])) c h ?_ (fun _ _ => by decide)
  decide +kernel

theorem digit_cls {c : Char} (h : digit c) : ec c = 18 := by
  refine ec_of (fun n => (48 ≤ n ∧ n ≤ 57)) (Q := (· = 18)) c h ?_ (fun h1 h2 => by omega)
  decide +kernel

/-- the characters of a name -/
theorem word_go {c : Char} (h : wordChar c) :
    (∀ s ∈ [34, 66], at' t_base (delta 4 s (ec c)) ≠ 138 ∧ delta 4 s (ec c) ∈ [34, 66]) ∧ ∀ s ∈ [56, 79], at' t_base (delta 4 s (ec c)) ≠ 138 ∧ delta 4 s (ec c) ∈ [56, 79] := by
  refine ec_of (fun n => (65 ≤ n ∧ n ≤ 90 ∨ 97 ≤ n ∧ n ≤ 122 ∨ 128 ≤ n) ∨ (48 ≤ n ∧ n ≤ 57) ∨ n ∈ [95, 58, 43, 45, 42, 47, 60, 62])
    (Q := fun k => (∀ s ∈ [34, 66], at' t_base (delta 4 s k) ≠ 138 ∧ delta 4 s k ∈ [34, 66]) ∧ ∀ s ∈ [56, 79], at' t_base (delta 4 s k) ≠ 138 ∧ delta 4 s k ∈ [56, 79])
    c h ?_ (fun _ _ => by decide +kernel)
  decide +kernel

/-- the characters after a name -/
theorem word_stop {c : Char} (h : ¬ wordChar c) : (∀ s ∈ [34, 66], jam s (ec c) = true) ∧ ∀ s ∈ [56, 79], jam s (ec c) = true := by
  refine ec_of (fun n => ¬ ((65 ≤ n ∧ n ≤ 90 ∨ 97 ≤ n ∧ n ≤ 122 ∨ 128 ≤ n) ∨ (48 ≤ n ∧ n ≤ 57) ∨ n ∈ [95, 58, 43, 45, 42, 47, 60, 62]))
    (Q := fun k => (∀ s ∈ [34, 66], jam s k = true) ∧ ∀ s ∈ [56, 79], jam s k = true) c h ?_ (fun h1 h2 => absurd (.inl (.inr (.inr h2))) h1)
  decide +kernel

/-- the characters after a number -/
theorem num_stop {c : Char} (h : ¬ (digit c ∨ c ∈ ['.', '-', ':'])) : ∀ s ∈ [27, 61, 81, 86, 89], jam s (ec c) = true := by
  refine ec_of (fun n => ¬ (48 ≤ n ∧ n ≤ 57) ∧ n ∉ [46, 45, 58]) (Q := fun k => ∀ s ∈ [27, 61, 81, 86, 89], jam s k = true) c
    ⟨fun k => h (.inl k), not_mem fun k => h (.inr k)⟩ ?_ (fun _ _ => by decide +kernel)
  decide +kernel

theorem scan_ident {c : Char} {cs r : List Char} (hc : letter c) (hcs : ∀ x ∈ cs, wordChar x) (hr : ∀ c, r.head? = some c → ¬ wordChar c) :
    scan 1 (c :: (cs ++ r)) 0 (0, 0) = (35, (c :: cs).length) := by
  have h := letter_cls hc
  have hd : delta 4 1 (ec c) = 34 := by generalize ec c = k at h; revert k; decide +kernel
  rw [scan_next hd (by decide +kernel), scan_loop (St := [34, 66]) (a := 35) (by decide) (by decide +kernel) (fun c hc => (word_stop (hr c hc)).1) cs
    (fun c hc => (word_go (hcs c hc)).1) (by simp)]
  simp; omega

theorem scan_dollar {c : Char} {cs r : List Char} (hc : letter c) (hcs : ∀ x ∈ cs, wordChar x) (hr : ∀ c, r.head? = some c → ¬ wordChar c) :
    scan 1 ('$' :: c :: (cs ++ r)) 0 (0, 0) = (36, ('$' :: c :: cs).length) := by
  have h := letter_cls hc
  have hd : delta 4 15 (ec c) = 56 := by generalize ec c = k at h; revert k; decide +kernel
  rw [scan_next (s' := 15) (by decide +kernel) (by decide +kernel), scan_next hd (by decide +kernel),
    scan_loop (St := [56, 79]) (a := 36) (by decide) (by decide +kernel) (fun c hc => (word_stop (hr c hc)).2) cs (fun c hc => (word_go (hcs c hc)).2) (by simp)]
  simp; omega

theorem scan_num {c : Char} {cs r : List Char} (hc : digit c) (hcs : ∀ x ∈ cs, digit x) (hr : ∀ c, r.head? = some c → ¬ (digit c ∨ c ∈ ['.', '-', ':'])) :
    scan 1 (c :: (cs ++ r)) 0 (0, 0) = (12, (c :: cs).length) := by
  have h := digit_cls hc
  rw [scan_next (s' := 27) (by rw [h]; decide +kernel) (by decide +kernel), scan_loop (St := [27, 61, 81, 86, 89]) (a := 12) (by decide) (by decide +kernel)
    (fun c hc => num_stop (hr c hc)) cs (fun c hc => by rw [digit_cls (hcs c hc)]; decide +kernel) (by simp)]
  simp; omega

/-! ### The tokens of a text -/

/-- the scanner gives the tokens -/
def Lexes (txt : List Char) (ts : List Tok) : Prop := ∀ k buf, txt.length ≤ k → lexLoop k 1 buf txt = some ts

theorem lexes_nil : Lexes [] [] := by
  intro k buf _
  cases k <;> rfl

theorem tok_step {x r : List Char} {ts : List Tok} {a kind : Nat} (hx : x ≠ []) (h : scan 1 (x ++ r) 0 (0, 0) = (a, x.length)) (hd : doing a = .tok kind)
    (hr : Lexes r ts) : Lexes (x ++ r) (⟨kind, String.ofList x⟩ :: ts) := by
  intro k buf hk
  cases x with
  | nil => exact absurd rfl hx
  | cons c cs =>
    cases k with
    | zero => simp at hk
    | succ k =>
      rw [List.cons_append] at h ⊢
      rw [lexLoop]
      simp only [h, hd]
      have h1 : (c :: (cs ++ r)).drop (c :: cs).length = r := by simp
      have h2 : (c :: (cs ++ r)).take (c :: cs).length = c :: cs := by simp
      rw [h1, h2, hr k buf (by simp at hk; omega)]
      rfl

theorem word_step {x r : List Char} {ts : List Tok} {a kind : Nat} {t : String} (hx : x ≠ []) (h : scan 1 (x ++ r) 0 (0, 0) = (a, x.length)) (hd : doing a = .word kind t)
    (hr : Lexes r ts) : Lexes (x ++ r) (⟨kind, t⟩ :: ts) := by
  intro k buf hk
  cases x with
  | nil => exact absurd rfl hx
  | cons c cs =>
    cases k with
    | zero => simp at hk
    | succ k =>
      rw [List.cons_append] at h ⊢
      rw [lexLoop]
      simp only [h, hd]
      have h1 : (c :: (cs ++ r)).drop (c :: cs).length = r := by simp
      rw [h1, hr k buf (by simp at hk; omega)]
      rfl

theorem skip_step {x r : List Char} {ts : List Tok} {a s : Nat} {buf : List Char} {k : Nat} (h : scan s (x ++ r) 0 (0, 0) = (a, x.length)) (hx : x ≠ []) (hd : doing a = .skip)
    (hr : lexLoop k s buf r = some ts) : lexLoop (k + 1) s buf (x ++ r) = some ts := by
  cases x with
  | nil => exact absurd rfl hx
  | cons c cs =>
    rw [List.cons_append] at h ⊢
    rw [lexLoop]
    simp only [h, hd]
    have h1 : (c :: (cs ++ r)).drop (c :: cs).length = r := by simp
    rw [h1, hr]

/-! ### Names in quotes -/

theorem utf8_pos (c : Char) : 1 ≤ c.utf8Size := c.utf8Size_pos

theorem bytes_append (a b : List Char) : bytes (a ++ b) = bytes a + bytes b := by simp [bytes]

theorem put_step {s : Nat} {c : Char} {x r buf : List Char} {y : Option Char} {a k : Nat} {res : Option (List Tok)} (h : scan s (c :: (x ++ r)) 0 (0, 0) = (a, x.length + 1))
    (hd : doing a = .put y) (hb : bytes buf + (y.getD c).utf8Size ≤ 1024) (hr : lexLoop k s (buf ++ [y.getD c]) r = res) :
    lexLoop (k + 1) s buf (c :: (x ++ r)) = res := by
  rw [lexLoop]
  simp only [h, hd]
  have h1 : (c :: (x ++ r)).drop (x.length + 1) = r := by simp
  rw [h1, if_neg (by simp only [strbuf]; omega), hr]

theorem close_step {s a kind k : Nat} {c : Char} {r buf : List Char} {ts : List Tok} (h : scan s (c :: r) 0 (0, 0) = (a, 1)) (hd : doing a = .close kind) (hb : bytes buf < 1024)
    (hr : Lexes r ts) (hk : r.length ≤ k) : lexLoop (k + 1) s buf (c :: r) = some (⟨kind, String.ofList buf⟩ :: ts) := by
  rw [lexLoop]
  simp only [h, hd]
  rw [if_neg (by simp only [strbuf]; omega)]
  simp [hr k buf hk]

theorem quoted_char {c : Char} (h : c ∉ ['\'', '\\', '\n']) : delta 4 5 (ec c) = 45 := by
  refine ec_of (fun n => n ∉ [39, 92, 10]) (Q := fun k => delta 4 5 k = 45) c (not_mem h) ?_ (fun _ _ => by decide +kernel)
  decide +kernel

theorem object_char {c : Char} (h : c ∉ ['"', '\\', '\n']) : delta 4 3 (ec c) = 41 := by
  refine ec_of (fun n => n ∉ [34, 92, 10]) (Q := fun k => delta 4 3 k = 41) c (not_mem h) ?_ (fun _ _ => by decide +kernel)
  decide +kernel

theorem quoted_loop {r : List Char} {ts : List Tok} (hr : Lexes r ts) : ∀ (cs buf : List Char), '\\' ∉ cs → bytes buf + bytes cs < 1024 →
    ∀ k, (cs.flatMap (escaped '\'') ++ '\'' :: r).length ≤ k → lexLoop k 5 buf (cs.flatMap (escaped '\'') ++ '\'' :: r) = some (⟨12, String.ofList (buf ++ cs)⟩ :: ts)
  | [], buf, _, hl, k, hk => by
    cases k with
    | zero => simp at hk
    | succ k =>
      have := close_step (s := 5) (a := 27) (kind := 12) (k := k) (c := '\'') (r := r) (buf := buf) (ts := ts)
        (scan_last (s' := 47) (by decide +kernel) (by decide +kernel) (by decide +kernel)) rfl (by simp [bytes] at hl ⊢; omega) hr (by simp at hk; omega)
      simpa using this
  | c :: cs, buf, hb, hl, k, hk => by
    have hb' : bytes buf + c.utf8Size + bytes cs < 1024 := by simp [bytes] at hl ⊢; omega
    have ih := quoted_loop hr cs (buf ++ [c]) (fun h => hb (by simp [h])) (by simp [bytes] at hl ⊢; omega)
    cases k with
    | zero => simp at hk
    | succ k =>
      rw [List.flatMap_cons, List.append_assoc] at hk ⊢
      by_cases h1 : c = '\''
      · subst h1
        have he : escaped '\'' '\'' = ['\\', '\''] := by decide
        rw [he] at hk ⊢
        refine put_step (x := ['\'']) (y := some '\'') (a := 26) ?_ rfl (by simp; omega) ?_
        · rw [scan_next (s' := 48) (by decide +kernel) (by decide +kernel)]
          simp only [List.cons_append, List.nil_append]
          rw [scan_last (s' := 72) (by decide +kernel) (by decide +kernel) (by decide +kernel)]
          decide +kernel
        · rw [Option.getD_some, ih k (by simp at hk ⊢; omega)]; simp
      · have he : escaped '\'' c = [c] := by simp [escaped, h1]
        rw [he] at hk ⊢
        by_cases h2 : c = '\n'
        · subst h2
          refine put_step (x := []) (y := some '\n') (a := 28) ?_ rfl (by simp; omega) ?_
          · exact scan_last (s' := 46) (by decide +kernel) (by decide +kernel) (by decide +kernel)
          · rw [Option.getD_some, ih k (by simp at hk ⊢; omega)]; simp
        · refine put_step (x := []) (y := none) (a := 29) ?_ rfl (by simp; omega) ?_
          · exact scan_last (s' := 45) (quoted_char (by simp [h1, h2]; intro h3; exact hb (by simp [h3]))) (by decide +kernel) (by decide +kernel)
          · rw [Option.getD_none, ih k (by simp at hk ⊢; omega)]; simp

theorem object_loop {r : List Char} {ts : List Tok} (hr : Lexes r ts) : ∀ (cs buf : List Char), '\\' ∉ cs → bytes buf + bytes cs < 1024 →
    ∀ k, (cs.flatMap (escaped '"') ++ '"' :: r).length ≤ k → lexLoop k 3 buf (cs.flatMap (escaped '"') ++ '"' :: r) = some (⟨13, String.ofList (buf ++ cs)⟩ :: ts)
  | [], buf, _, hl, k, hk => by
    cases k with
    | zero => simp at hk
    | succ k =>
      have := close_step (s := 3) (a := 20) (kind := 13) (k := k) (c := '"') (r := r) (buf := buf) (ts := ts)
        (scan_last (s' := 43) (by decide +kernel) (by decide +kernel) (by decide +kernel)) rfl (by simp [bytes] at hl ⊢; omega) hr (by simp at hk; omega)
      simpa using this
  | c :: cs, buf, hb, hl, k, hk => by
    have hb' : bytes buf + c.utf8Size + bytes cs < 1024 := by simp [bytes] at hl ⊢; omega
    have ih := object_loop hr cs (buf ++ [c]) (fun h => hb (by simp [h])) (by simp [bytes] at hl ⊢; omega)
    cases k with
    | zero => simp at hk
    | succ k =>
      rw [List.flatMap_cons, List.append_assoc] at hk ⊢
      by_cases h1 : c = '"'
      · subst h1
        have he : escaped '"' '"' = ['\\', '"'] := by decide
        rw [he] at hk ⊢
        refine put_step (x := ['"']) (y := some '"') (a := 19) ?_ rfl (by simp; omega) ?_
        · rw [scan_next (s' := 44) (by decide +kernel) (by decide +kernel)]
          simp only [List.cons_append, List.nil_append]
          rw [scan_last (s' := 69) (by decide +kernel) (by decide +kernel) (by decide +kernel)]
          decide +kernel
        · rw [Option.getD_some, ih k (by simp at hk ⊢; omega)]; simp
      · have he : escaped '"' c = [c] := by simp [escaped, h1]
        rw [he] at hk ⊢
        by_cases h2 : c = '\n'
        · subst h2
          refine put_step (x := []) (y := some '\n') (a := 21) ?_ rfl (by simp; omega) ?_
          · exact scan_last (s' := 42) (by decide +kernel) (by decide +kernel) (by decide +kernel)
          · rw [Option.getD_some, ih k (by simp at hk ⊢; omega)]; simp
        · refine put_step (x := []) (y := none) (a := 22) ?_ rfl (by simp; omega) ?_
          · exact scan_last (s' := 41) (object_char (by simp [h1, h2]; intro h3; exact hb (by simp [h3]))) (by decide +kernel) (by decide +kernel)
          · rw [Option.getD_none, ih k (by simp at hk ⊢; omega)]; simp

theorem start_step {c : Char} {x : List Char} {a s k : Nat} {buf : List Char} {res : Option (List Tok)} (h : scan 1 (c :: x) 0 (0, 0) = (a, 1)) (hd : doing a = .start s)
    (hr : lexLoop k s [] x = res) : lexLoop (k + 1) 1 buf (c :: x) = res := by
  rw [lexLoop]
  simp only [h, hd]
  simpa using hr

/-- the first character of a name in quotes is not a quote -/
theorem quote_stop {c : Char} (h : c ≠ '\'') : jam 18 (ec c) = true := by
  refine ec_of (fun n => n ∉ [39]) (Q := fun k => jam 18 k = true) c (not_mem (l := ['\'']) (by simpa using h)) ?_ (fun _ _ => by decide +kernel)
  decide +kernel

theorem lexes_quoted {cs r : List Char} {ts : List Tok} (h0 : cs ≠ []) (hb : '\\' ∉ cs) (hl : bytes cs < 1024) (hr : Lexes r ts) :
    Lexes ('\'' :: (cs.flatMap (escaped '\'') ++ ['\'']) ++ r) (⟨12, String.ofList cs⟩ :: ts) := by
  intro k buf hk
  cases k with
  | zero => simp at hk
  | succ k =>
    have hh : '\'' :: (cs.flatMap (escaped '\'') ++ ['\'']) ++ r = '\'' :: (cs.flatMap (escaped '\'') ++ '\'' :: r) := by simp
    rw [hh] at hk ⊢
    refine start_step (a := 23) (s := 5) ?_ rfl ?_
    · rw [scan_next (s' := 18) (by decide +kernel) (by decide +kernel), scan_stop (by decide +kernel)]
      · decide +kernel
      · intro c hc
        refine quote_stop ?_
        rintro rfl
        cases cs with
        | nil => exact h0 rfl
        | cons d ds =>
          simp only [List.flatMap_cons, escaped] at hc
          split at hc
          · simp at hc
          · rename_i hne; simp at hc; exact hne hc
    · have := quoted_loop hr cs [] hb (by simpa [bytes] using hl) k (by simpa using hk)
      simpa using this

theorem lexes_object {cs r : List Char} {ts : List Tok} (hb : '\\' ∉ cs) (hl : bytes cs < 1024) (hr : Lexes r ts) :
    Lexes ('"' :: (cs.flatMap (escaped '"') ++ ['"']) ++ r) (⟨13, String.ofList cs⟩ :: ts) := by
  intro k buf hk
  cases k with
  | zero => simp at hk
  | succ k =>
    have hh : '"' :: (cs.flatMap (escaped '"') ++ ['"']) ++ r = '"' :: (cs.flatMap (escaped '"') ++ '"' :: r) := by simp
    rw [hh] at hk ⊢
    refine start_step (a := 16) (s := 3) ?_ rfl ?_
    · exact scan_last (s' := 14) (by decide +kernel) (by decide +kernel) (by decide +kernel)
    · have := object_loop hr cs [] hb (by simpa [bytes] using hl) k (by simpa using hk)
      simpa using this

/-! ### Names that are too long -/

theorem quoted_over (r : List Char) : ∀ (cs buf : List Char), '\\' ∉ cs → bytes buf ≤ 1024 → 1024 ≤ bytes buf + bytes cs →
    ∀ k, (cs.flatMap (escaped '\'') ++ '\'' :: r).length ≤ k → lexLoop k 5 buf (cs.flatMap (escaped '\'') ++ '\'' :: r) = none
  | [], buf, _, hu, hl, k, hk => by
    cases k with
    | zero => simp at hk
    | succ k =>
      have h : scan 5 ('\'' :: r) 0 (0, 0) = (27, 1) := scan_last (s' := 47) (by decide +kernel) (by decide +kernel) (by decide +kernel)
      rw [List.flatMap_nil, List.nil_append, lexLoop]
      simp only [h, doing]
      rw [if_pos (by simp [strbuf, bytes] at hl ⊢; omega)]
  | c :: cs, buf, hb, hu, hl, k, hk => by
    have ih := quoted_over r cs (buf ++ [c]) (fun h => hb (by simp [h]))
    cases k with
    | zero => simp at hk
    | succ k =>
      rw [List.flatMap_cons, List.append_assoc] at hk ⊢
      -- what is put is the character
      have key : ∀ (d : Char) (x : List Char) (a : Nat) (y : Option Char), escaped '\'' c = d :: x →
          scan 5 (d :: (x ++ (cs.flatMap (escaped '\'') ++ '\'' :: r))) 0 (0, 0) = (a, x.length + 1) → doing a = .put y → y.getD d = c →
          lexLoop (k + 1) 5 buf (escaped '\'' c ++ (cs.flatMap (escaped '\'') ++ '\'' :: r)) = none := by
        intro d x a y he h hd hy
        rw [he] at hk ⊢
        by_cases hf : bytes buf + c.utf8Size ≤ 1024
        · refine put_step (x := x) (y := y) h hd (by rw [hy]; exact hf) ?_
          rw [hy]
          exact ih (by simp [bytes] at hf ⊢; omega) (by simp [bytes] at hl ⊢; omega) k (by simp at hk ⊢; omega)
        · rw [List.cons_append, lexLoop]
          simp only [h, hd]
          rw [hy, if_pos (by simp only [strbuf]; omega)]
      by_cases h1 : c = '\''
      · subst h1
        refine key '\\' ['\''] 26 (some '\'') (by decide) ?_ rfl rfl
        rw [scan_next (s' := 48) (by decide +kernel) (by decide +kernel)]
        simp only [List.cons_append, List.nil_append]
        rw [scan_last (s' := 72) (by decide +kernel) (by decide +kernel) (by decide +kernel)]
        decide +kernel
      · by_cases h2 : c = '\n'
        · subst h2
          exact key '\n' [] 28 (some '\n') (by decide) (scan_last (s' := 46) (by decide +kernel) (by decide +kernel) (by decide +kernel)) rfl rfl
        · exact key c [] 29 none (by simp [escaped, h1])
            (scan_last (s' := 45) (quoted_char (by simp [h1, h2]; intro h3; exact hb (by simp [h3]))) (by decide +kernel) (by decide +kernel)) rfl rfl

/-- nothing is read of a text in which the first token is a name in quotes with 1024 bytes or more: the buffer overflows -/
theorem lex_over {cs : List Char} (hb : '\\' ∉ cs) (hl : 1024 ≤ bytes cs) (r : List Char) :
    lex ('\'' :: (cs.flatMap (escaped '\'') ++ '\'' :: r)) = none := by
  unfold lex
  rw [List.length_cons]
  refine start_step (a := 23) (s := 5) ?_ rfl (quoted_over r cs [] hb (by simp [bytes]) (by simpa [bytes] using hl) _ (Nat.le_refl _))
  rw [scan_next (s' := 18) (by decide +kernel) (by decide +kernel), scan_stop (by decide +kernel)]
  · decide +kernel
  · intro c hc
    refine quote_stop ?_
    rintro rfl
    cases cs with
    | nil => simp [bytes] at hl
    | cons d ds =>
      simp only [List.flatMap_cons, escaped] at hc
      split at hc
      · simp at hc
      · rename_i hne; simp at hc; exact hne hc

/-! ### Signs -/

/-- the state after a text, if the automaton does not stop inside of it -/
def walk : Nat → List Char → Option Nat
  | s, [] => some s
  | s, c :: cs => if at' t_base (delta 4 s (ec c)) = 138 then none else walk (delta 4 s (ec c)) cs

theorem scan_walk : ∀ {x : List Char} {s s' : Nat}, walk s x = some s' → ∀ (r : List Char) (n : Nat) (last : Nat × Nat),
    ∃ last', scan s (x ++ r) n last = scan s' r (n + x.length) last'
  | [], s, s', h, r, n, last => by
    simp only [walk, Option.some.injEq] at h
    subst h
    exact ⟨last, rfl⟩
  | c :: cs, s, s', h, r, n, last => by
    rw [walk] at h
    split at h
    · cases h
    · rename_i hb
      obtain ⟨l', hl⟩ := scan_walk h r (n + 1) (if at' t_accept s ≠ 0 then (at' t_accept s, n) else last)
      refine ⟨l', ?_⟩
      rw [List.cons_append, scan_next rfl hb, hl, List.length_cons]
      congr 1; omega

/-- the action gives the token -/
def gives (a : Nat) (x : List Char) (t : Tok) : Bool := doing a == .word t.kind t.text || (doing a == .tok t.kind && t.text == String.ofList x)

/-- the automaton reads the sign, and stops at once or at every character that may follow -/
def signOk (e : Tok × String × List Char) : Bool :=
  let x := e.2.1.toList
  let atonce := match walk 1 x.dropLast, x.getLast? with
    | some s, some c => at' t_base (delta 4 s (ec c)) == 138 && at' t_accept (delta 4 s (ec c)) != 0 && gives (at' t_accept (delta 4 s (ec c))) x e.1
    | _, _ => false
  let later := match walk 1 x with
    | some s => at' t_accept s != 0 && gives (at' t_accept s) x e.1 && jam s 25 && (List.range 128).all fun n => (e.2.2.map Char.toNat).contains n || jam s (ecn n)
    | none => false
  x != [] && (atonce || later)

theorem signs_ok : ∀ e ∈ signs, signOk e = true := by decide +kernel

theorem lexes_gives {x r : List Char} {ts : List Tok} {a : Nat} {t : Tok} (hx : x ≠ []) (h : scan 1 (x ++ r) 0 (0, 0) = (a, x.length)) (hg : gives a x t = true)
    (hr : Lexes r ts) : Lexes (x ++ r) (t :: ts) := by
  simp only [gives, Bool.or_eq_true, beq_iff_eq, Bool.and_eq_true] at hg
  rcases hg with hg | ⟨hg, ht⟩
  · exact word_step hx h hg hr
  · have := tok_step hx h hg hr
    rw [← ht] at this
    exact this

theorem lexes_sign {t : Tok} {x : String} {no r : List Char} {ts : List Tok} (h : (t, x, no) ∈ signs) (hn : ∀ c, r.head? = some c → ¬ c ∈ no) (hr : Lexes r ts) :
    Lexes (x.toList ++ r) (t :: ts) := by
  have hs := signs_ok _ h
  simp only [signOk, Bool.and_eq_true, Bool.or_eq_true, bne_iff_ne, ne_eq] at hs
  obtain ⟨hx, hs⟩ := hs
  generalize x.toList = x at hx hs
  rcases hs with hs | hs
  · split at hs
    · rename_i s c hw hc
      simp only [Bool.and_eq_true, beq_iff_eq, bne_iff_ne, ne_eq] at hs
      obtain ⟨⟨h1, h2⟩, h3⟩ := hs
      refine lexes_gives hx ?_ h3 hr
      obtain ⟨y, rfl⟩ := List.getLast?_eq_some_iff.1 hc
      rw [List.dropLast_concat] at hw
      obtain ⟨l', hl⟩ := scan_walk hw (c :: r) 0 (0, 0)
      rw [List.append_assoc, List.singleton_append, hl, List.length_append, List.length_singleton, Nat.zero_add]
      exact scan_last rfl h1 h2
    · cases hs
  · split at hs
    · rename_i s hw
      simp only [Bool.and_eq_true, bne_iff_ne, ne_eq, List.all_eq_true, List.mem_range, Bool.or_eq_true, List.contains_iff_mem] at hs
      obtain ⟨⟨⟨h1, h2⟩, h3⟩, h4⟩ := hs
      refine lexes_gives hx ?_ h2 hr
      obtain ⟨l', hl⟩ := scan_walk hw r 0 (0, 0)
      rw [hl, scan_stop h1]
      · simp
      · intro c hc
        refine ec_of (fun n => n ∉ no.map Char.toNat) (Q := fun k => jam s k = true) c (not_mem (hn c hc)) ?_ (fun _ _ => h3)
        intro n hn' hno
        exact (h4 n hn').resolve_left hno
    · cases hs

theorem exists_stop {c : Char} (h : ¬ letter c) : jam 32 (ec c) = true := by
  refine ec_of (fun n => ¬ ((65 ≤ n ∧ n ≤ 90 ∨ 97 ≤ n ∧ n ≤ 122 ∨ 128 ≤ n))) (Q := fun k => jam 32 k = true) c h ?_ (fun h1 h2 => absurd (.inr (.inr h2)) h1)
  decide +kernel

theorem lexes_exists {r : List Char} {ts : List Tok} (hn : ∀ c, r.head? = some c → ¬ letter c) (hr : Lexes r ts) : Lexes ('?' :: r) (⟨29, ""⟩ :: ts) := by
  refine word_step (x := ['?']) (a := 52) (by simp) ?_ rfl hr
  rw [List.singleton_append, scan_next (s' := 32) (by decide +kernel) (by decide +kernel), scan_stop (by decide +kernel) (fun c hc => exists_stop (hn c hc))]
  decide +kernel

/-! ### Blanks and comments -/

theorem lexes_newline {r : List Char} {ts : List Tok} (hr : Lexes r ts) : Lexes ('\n' :: r) ts := by
  intro k buf hk
  cases k with
  | zero => simp at hk
  | succ k =>
    have hs : ∀ (l : List Char) (s : Nat), s ∈ [12, 53] → ∀ n last, (scan s l n last).1 = 38 := by
      intro l
      induction l with
      | nil =>
        intro s hs n last
        have ha : at' t_accept s = 38 := by revert s; decide +kernel
        unfold scan
        simp [ha]
      | cons c cs ih =>
        intro s hs n last
        have ha : at' t_accept s = 38 := by revert s; decide +kernel
        have : (at' t_base (delta 4 s (ec c)) ≠ 138 ∧ delta 4 s (ec c) ∈ [12, 53]) ∨ jam s (ec c) = true := by
          refine ec_of (fun _ => True) (Q := fun k => (at' t_base (delta 4 s k) ≠ 138 ∧ delta 4 s k ∈ [12, 53]) ∨ jam s k = true) c trivial ?_ ?_
          · revert s; decide +kernel
          · intro _ _; revert s; decide +kernel
        rcases this with h | h
        · rw [scan_next rfl h.1]; exact ih _ h.2 _ _
        · rw [scan_stop (by rw [ha]; decide) (by intro d hd; simp at hd; subst hd; exact h), ha]
    have h0 : (scan 1 ('\n' :: r) 0 (0, 0)).1 = 38 := by
      rw [scan_next (s' := 12) (by decide +kernel) (by decide +kernel)]
      exact hs _ _ (by simp) _ _
    rw [lexLoop]
    simp only [h0]
    exact hr k buf (by simp at hk; omega)

/-- a run of characters with a property, and what comes after it -/
theorem run_of (P : Char → Prop) (l : List Char) : ∃ a b, l = a ++ b ∧ (∀ c ∈ a, P c) ∧ ∀ c, b.head? = some c → ¬ P c := by
  induction l with
  | nil => exact ⟨[], [], rfl, by simp, by simp⟩
  | cons c cs ih =>
    obtain ⟨a, b, h1, h2, h3⟩ := ih
    by_cases hc : P c
    · exact ⟨c :: a, b, by simp [h1], by simp [hc]; exact h2, h3⟩
    · exact ⟨[], c :: cs, rfl, by simp, by intro d hd; simp at hd; subst hd; exact hc⟩

theorem blank_cls {c : Char} : (c ∈ [' ', '\t'] → ec c = 2) ∧ (c ∉ [' ', '\t'] → ∀ s ∈ [11, 52], jam s (ec c) = true) := by
  constructor
  · intro h
    simp only [List.mem_cons, List.not_mem_nil, or_false] at h
    rcases h with rfl | rfl <;> decide +kernel
  · intro h
    refine ec_of (fun n => n ∉ [32, 9]) (Q := fun k => ∀ s ∈ [11, 52], jam s k = true) c (not_mem h) ?_ (fun _ _ => by decide +kernel)
    decide +kernel

/-- the scanner skips one blank as well as several of them: the text after the first one can begin with further blanks -/
theorem lexes_blank {c : Char} {r : List Char} {ts : List Tok} (hc : c ∈ [' ', '\t']) (hr : Lexes r ts) : Lexes (c :: r) ts := by
  intro k buf hk
  cases k with
  | zero => simp at hk
  | succ k =>
    obtain ⟨a, b, rfl, h2, h3⟩ := run_of (· ∈ [' ', '\t']) r
    have hscan : ∀ (d : Char) (a : List Char), d ∈ [' ', '\t'] → (∀ c ∈ a, c ∈ [' ', '\t']) → scan 1 ((d :: a) ++ b) 0 (0, 0) = (57, (d :: a).length) := by
      intro d a hd ha
      rw [List.cons_append, scan_next (s' := 11) (by rw [blank_cls.1 hd]; decide +kernel) (by decide +kernel),
        scan_loop (St := [11, 52]) (a := 57) (by decide) (by decide +kernel) (fun c hc => blank_cls.2 (h3 c hc)) a
          (fun c hc => by rw [blank_cls.1 (ha c hc)]; decide +kernel) (by simp)]
      simp; omega
    refine skip_step (x := c :: a) (a := 57) (hscan c a hc h2) (by simp) rfl ?_
    cases a with
    | nil => exact hr k buf (by simp at hk ⊢; omega)
    | cons d a =>
      -- the text after the first blank gives the tokens, and so does the text after all of them
      have h4 := hr (k + 1) buf (by simp at hk ⊢; omega)
      have h5 := hscan d a (h2 d (by simp)) (fun c hc => h2 c (by simp [hc]))
      rw [List.cons_append, lexLoop] at h4
      rw [List.cons_append] at h5
      simp only [h5, doing] at h4
      have h6 : (d :: (a ++ b)).drop (d :: a).length = b := by simp
      rw [h6] at h4
      exact h4

theorem line_cls {c : Char} : (c ≠ '\n' → ∀ s ∈ [16, 57], at' t_base (delta 4 s (ec c)) ≠ 138 ∧ delta 4 s (ec c) ∈ [16, 57]) ∧ ∀ s ∈ [16, 57], jam s (ec '\n') = true := by
  constructor
  · intro h
    refine ec_of (fun n => n ∉ [10]) (Q := fun k => ∀ s ∈ [16, 57], at' t_base (delta 4 s k) ≠ 138 ∧ delta 4 s k ∈ [16, 57]) c
      (not_mem (l := ['\n']) (by simpa using h)) ?_ (fun _ _ => by decide +kernel)
    decide +kernel
  · decide +kernel

theorem lexes_line {x r : List Char} {ts : List Tok} (h : '\n' ∉ x) (hr : Lexes r ts) : Lexes ('%' :: (x ++ '\n' :: r)) ts := by
  intro k buf hk
  cases k with
  | zero => simp at hk
  | succ k =>
    refine skip_step (x := '%' :: x) (r := '\n' :: r) (a := 39) ?_ (by simp) rfl (lexes_newline hr k buf (by simp at hk ⊢; omega))
    rw [List.cons_append, scan_next (s' := 16) (by decide +kernel) (by decide +kernel),
      scan_loop (St := [16, 57]) (a := 39) (by decide) (by decide +kernel) (fun c hc => by simp at hc; subst hc; exact (line_cls (c := '\n')).2) x
        (fun c hc => line_cls.1 (fun he => h (he ▸ hc))) (by simp)]
    simp; omega

theorem block_cls {c : Char} : (c ∉ ['*', '\n'] → ∀ s ∈ [49, 75], at' t_base (delta 4 s (ec c)) ≠ 138 ∧ delta 4 s (ec c) ∈ [49, 75]) ∧
    (c ∉ ['*', '\n'] → delta 4 7 (ec c) = 49) ∧ ∀ s ∈ [49, 75], jam s (ec '\n') = true ∧ jam s (ec '*') = true := by
  refine ⟨fun h => ?_, fun h => ?_, by decide +kernel⟩
  · refine ec_of (fun n => n ∉ [42, 10]) (Q := fun k => ∀ s ∈ [49, 75], at' t_base (delta 4 s k) ≠ 138 ∧ delta 4 s k ∈ [49, 75]) c (not_mem h) ?_ (fun _ _ => by decide +kernel)
    decide +kernel
  · refine ec_of (fun n => n ∉ [42, 10]) (Q := fun k => delta 4 7 k = 49) c (not_mem h) ?_ (fun _ _ => by decide +kernel)
    decide +kernel

theorem block_loop {r : List Char} {ts : List Tok} (hr : Lexes r ts) : ∀ (m : Nat) (x : List Char), x.length ≤ m → '*' ∉ x → ∀ k buf,
    (x ++ '*' :: '/' :: r).length ≤ k → lexLoop k 7 buf (x ++ '*' :: '/' :: r) = some ts := by
  intro m
  induction m with
  | zero =>
    intro x hm hx k buf hk
    have : x = [] := List.length_eq_zero_iff.1 (by omega)
    subst this
    cases k with
    | zero => simp at hk
    | succ k =>
      have hs : scan 7 ('*' :: '/' :: r) 0 (0, 0) = (34, 2) := by
        rw [scan_next (s' := 51) (by decide +kernel) (by decide +kernel), scan_last (s' := 78) (by decide +kernel) (by decide +kernel) (by decide +kernel)]
        decide +kernel
      rw [List.nil_append, lexLoop]
      simp only [hs, doing]
      exact hr k [] (by simp at hk ⊢; omega)
  | succ m ih =>
    intro x hm hx k buf hk
    cases x with
    | nil => exact ih [] (by simp) (by simp) k buf hk
    | cons c cs =>
      cases k with
      | zero => simp at hk
      | succ k =>
        by_cases hc : c = '\n'
        · subst hc
          refine skip_step (x := ['\n']) (a := 33) ?_ (by simp) rfl (ih cs (by simp at hm; omega) (fun h => hx (by simp [h])) k buf (by simp at hk ⊢; omega))
          exact scan_last (s' := 50) (by decide +kernel) (by decide +kernel) (by decide +kernel)
        · have hc' : c ∉ ['*', '\n'] := by simp [hc]; rintro rfl; exact hx (by simp)
          obtain ⟨a, b, rfl, h2, h3⟩ := run_of (· ∉ ['*', '\n']) cs
          have he : (c :: (a ++ b)) ++ '*' :: '/' :: r = (c :: a) ++ (b ++ '*' :: '/' :: r) := by simp
          rw [he]
          refine skip_step (x := c :: a) (a := 31) ?_ (by simp) rfl (ih b (by simp at hm; omega) (fun h => hx (by simp [h])) k buf (by simp at hk ⊢; omega))
          rw [List.cons_append, scan_next (s' := 49) (block_cls.2.1 hc') (by decide +kernel),
            scan_loop (St := [49, 75]) (a := 31) (by decide) (by decide +kernel) ?_ a (fun c hc => block_cls.1 (h2 c hc)) (by simp)]
          · simp; omega
          · intro d hd s hs
            have hd' : d = '*' ∨ d = '\n' := by
              cases b with
              | nil => simp at hd; exact .inl hd.symm
              | cons e b => have := h3 e rfl; simp at hd this; subst hd; exact (Classical.or_iff_not_imp_left.2 this)
            rcases hd' with rfl | rfl
            · exact ((block_cls (c := 'a')).2.2 s hs).2
            · exact ((block_cls (c := 'a')).2.2 s hs).1

theorem lexes_block {x r : List Char} {ts : List Tok} (h : '*' ∉ x) (hr : Lexes r ts) : Lexes ('/' :: '*' :: (x ++ '*' :: '/' :: r)) ts := by
  intro k buf hk
  cases k with
  | zero => simp at hk
  | succ k =>
    have hs : scan 1 ('/' :: '*' :: (x ++ '*' :: '/' :: r)) 0 (0, 0) = (30, 2) := by
      rw [scan_next (s' := 26) (by decide +kernel) (by decide +kernel), scan_last (s' := 59) (by decide +kernel) (by decide +kernel) (by decide +kernel)]
      decide +kernel
    rw [lexLoop]
    simp only [hs, doing]
    exact block_loop hr _ x (Nat.le_refl _) h k [] (by simp at hk ⊢; omega)

theorem lexes_gap {g r : List Char} {ts : List Tok} (hg : Gap g) (hr : Lexes r ts) : Lexes (g ++ r) ts := by
  induction hg with
  | nil => exact hr
  | @blank g c h hg ih =>
    by_cases hc : c = '\n'
    · subst hc; exact lexes_newline ih
    · refine lexes_blank ?_ ih
      simp [hc] at h ⊢; exact h
  | line x h hg ih =>
    have := lexes_line h ih
    simpa using this
  | block x h hg ih =>
    have := lexes_block h ih
    simpa using this

theorem lexes_text {ts : List Tok} {txt : List Char} (h : Text ts txt) : Lexes txt ts := by
  induction h with
  | nil h => have := lexes_gap h lexes_nil; simpa using this
  | @cons g t x no ts r hg hx hn hr ih =>
    refine lexes_gap hg ?_
    cases hx with
    | word hc hcs => exact tok_step (a := 35) (by simp) (scan_ident hc hcs hn) rfl ih
    | dollar hc hcs => exact tok_step (a := 36) (by simp) (scan_dollar hc hcs hn) rfl ih
    | num hc hcs => exact tok_step (a := 12) (by simp) (scan_num hc hcs hn) rfl ih
    | quoted h0 hb hz hl => exact lexes_quoted h0 hb hl ih
    | object hb hz hl => exact lexes_object hb hl ih
    | sign h => exact lexes_sign h hn ih
    | exists' => exact lexes_exists hn ih

/-- the scanner gives the tokens of a text -/
theorem lex_text {ts : List Tok} {txt : List Char} (h : Text ts txt) : lex txt = some ts := lexes_text h _ _ (Nat.le_refl _)

end Gkc.Ps
