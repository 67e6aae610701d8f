import Verif.JsonSpec
/-
A JSON text has one value: a reader which finds the value of every text of the grammar.
-/
namespace Gkc.Json

/-- letters of numbers and literals -/
def wordCh (c : Char) : Bool := "0123456789-+.eEtrufalsn".toList.contains c

/-- whitespace -/
def wsCh (c : Char) : Bool := c = ' ' || c = '\n' || c = '\t' || c = '\r'

/-- without leading whitespace -/
def dropWs (t : List Char) : List Char := t.dropWhile wsCh

/-- a string up to its closing quote -/
def readS : List Char → Option (List Char × List Char)
  | [] => none
  | c :: r =>
    if c = '"' then some ([], r)
    else if c = '\\' then
      match r with
      | [] => none
      | e :: r =>
        if e = 'u' then
          match r with
          | h1 :: h2 :: h3 :: h4 :: r =>
            match hexVal h1, hexVal h2, hexVal h3, hexVal h4 with
            | some v1, some v2, some v3, some v4 =>
              (readS r).map (fun x => (Char.ofNat (((v1 * 16 + v2) * 16 + v3) * 16 + v4) :: x.1, x.2))
            | _, _, _, _ => none
          | _ => none
        else match escChar e with
          | some d => (readS r).map (fun x => (d :: x.1, x.2))
          | none => none
    else (readS r).map (fun x => (c :: x.1, x.2))

/-- the value of a word -/
def wordJ (w : List Char) : J :=
  if w = ['t', 'r', 'u', 'e'] then .tru
  else if w = ['f', 'a', 'l', 's', 'e'] then .fls
  else if w = ['n', 'u', 'l', 'l'] then .null
  else .num w

mutual
/-- a value with the whitespace around it -/
def readV : Nat → List Char → Option (J × List Char)
  | 0, _ => none
  | n + 1, t =>
    match dropWs t with
    | [] => none
    | c :: r =>
      if c = '"' then (readS r).map (fun x => (.str x.1, dropWs x.2))
      else if c = '[' then
        if (dropWs r).head? = some ']' then some (.arr [], dropWs ((dropWs r).drop 1))
        else (readE n r).map (fun x => (.arr x.1, dropWs (x.2.drop 1)))
      else if c = '{' then
        if (dropWs r).head? = some '}' then some (.obj [], dropWs ((dropWs r).drop 1))
        else (readM n r).map (fun x => (.obj x.1, dropWs (x.2.drop 1)))
      else some (wordJ ((c :: r).takeWhile wordCh), dropWs ((c :: r).dropWhile wordCh))
/-- elements of an array -/
def readE : Nat → List Char → Option (List J × List Char)
  | 0, _ => none
  | n + 1, t =>
    match readV n t with
    | some (j, ',' :: r) => (readE n r).map (fun x => (j :: x.1, x.2))
    | some (j, r) => some ([j], r)
    | none => none
/-- members of an object -/
def readM : Nat → List Char → Option (List (List Char × J) × List Char)
  | 0, _ => none
  | n + 1, t =>
    match readS ((dropWs t).drop 1) with
    | some (k, r) =>
      match readV n ((dropWs r).drop 1) with
      | some (j, ',' :: r) => (readM n r).map (fun x => ((k, j) :: x.1, x.2))
      | some (j, r) => some ([(k, j)], r)
      | none => none
    | none => none
end

theorem wsCh_of {c : Char} (h : IsWs c) : wsCh c = true := by
  rcases h with rfl | rfl | rfl | rfl <;> decide

theorem dropWs_ws {w t : List Char} (h : ∀ c ∈ w, IsWs c) : dropWs (w ++ t) = dropWs t := by
  induction w with
  | nil => rfl
  | cons c r ih =>
    have : dropWs (c :: (r ++ t)) = dropWs (r ++ t) := by
      unfold dropWs
      rw [List.dropWhile_cons_of_pos (wsCh_of (h c (List.mem_cons_self ..)))]
    rw [List.cons_append, this]
    exact ih (fun x hx => h x (List.mem_cons_of_mem _ hx))

theorem dropWs_no {c : Char} {t : List Char} (h : wsCh c = false) : dropWs (c :: t) = c :: t := by
  unfold dropWs
  rw [List.dropWhile_cons_of_neg (by simp [h])]

theorem readS_raw {r s : List Char} (h : StrRaw r s) (rest : List Char) :
    readS (r ++ '"' :: rest) = some (s, rest) := by
  induction h with
  | nil => rw [List.nil_append, readS.eq_def]; rfl
  | plain h1 h2 h3 _ ih =>
    rw [List.cons_append, readS.eq_def]
    simp only [if_neg h1, if_neg h2, ih, Option.map_some]
  | @esc x _ _ _ h1 _ ih =>
    have hu : x ≠ 'u' := by
      rintro rfl
      rw [show escChar 'u' = none from by decide] at h1
      cases h1
    rw [List.cons_append, List.cons_append, readS.eq_def]
    simp only [if_neg (show ('\\' : Char) ≠ '"' by decide), if_true, if_neg hu, h1, ih, Option.map_some]
  | uni h1 h2 h3 h4 _ ih =>
    simp only [List.cons_append]
    rw [readS.eq_def]
    simp only [if_neg (show ('\\' : Char) ≠ '"' by decide), if_true, h1, h2, h3, h4, ih, Option.map_some]

theorem dig_wordCh {c : Char} (h : IsDig c) : wordCh c = true := by
  obtain ⟨h1, h2⟩ := h
  have : c = Char.ofNat c.toNat := (Char.ofNat_toNat c).symm
  rw [this]
  generalize c.toNat = n at h1 h2 ⊢
  rcases (by omega : n = 48 ∨ n = 49 ∨ n = 50 ∨ n = 51 ∨ n = 52 ∨ n = 53 ∨ n = 54 ∨ n = 55 ∨ n = 56 ∨ n = 57) with
    rfl | rfl | rfl | rfl | rfl | rfl | rfl | rfl | rfl | rfl <;> decide

/-- the first character of a word -/
theorem wordCh_not {c : Char} (h : wordCh c = true) : wsCh c = false ∧ c ≠ '"' ∧ c ≠ '[' ∧ c ≠ '{' ∧ c ≠ ']' ∧ c ≠ '}' := by
  have h2 : "0123456789-+.eEtrufalsn".toList.all (fun x => decide (wsCh x = false ∧ x ≠ '"' ∧ x ≠ '[' ∧ x ≠ '{' ∧
      x ≠ ']' ∧ x ≠ '}')) = true := by decide
  have h3 := List.all_eq_true.1 h2 c (by unfold wordCh at h; simpa using h)
  simpa using h3

/-- a text which does not go on with a word -/
def NoWord (rest : List Char) : Prop := ∀ c, rest.head? = some c → wordCh c = false

theorem take_word {w rest : List Char} (h : ∀ c ∈ w, wordCh c = true) (hr : NoWord rest) :
    (w ++ rest).takeWhile wordCh = w ∧ (w ++ rest).dropWhile wordCh = rest := by
  induction w with
  | nil =>
    cases rest with
    | nil => exact ⟨rfl, rfl⟩
    | cons c r =>
      have := hr c rfl
      rw [List.nil_append, List.takeWhile_cons_of_neg (by simp [this]), List.dropWhile_cons_of_neg (by simp [this])]
      exact ⟨rfl, rfl⟩
  | cons c r ih =>
    have hc := h c (List.mem_cons_self ..)
    have := ih (fun x hx => h x (List.mem_cons_of_mem _ hx))
    rw [List.cons_append, List.takeWhile_cons_of_pos hc, List.dropWhile_cons_of_pos hc, this.1, this.2]
    exact ⟨rfl, rfl⟩

theorem readV_word {w rest : List Char} (hne : w ≠ []) (h : ∀ c ∈ w, wordCh c = true) (hr : NoWord rest) (n : Nat) :
    readV (n + 1) (w ++ rest) = some (wordJ w, dropWs rest) := by
  cases w with
  | nil => exact absurd rfl hne
  | cons c r =>
    obtain ⟨h1, h2, h3, h4, _, _⟩ := wordCh_not (h c (List.mem_cons_self ..))
    have := take_word h hr
    rw [List.cons_append] at this ⊢
    rw [readV, dropWs_no h1]
    simp only [if_neg h2, if_neg h3, if_neg h4, this.1, this.2]

theorem num_chars {r : List Char} (h : NumOk r) : r ≠ [] ∧ (∀ c ∈ r, wordCh c = true) ∧ wordJ r = .num r := by
  obtain ⟨sg, ip, fr, ex, rfl, h1, ⟨h2, h3, _⟩, h4, h5⟩ := h
  refine ⟨by simp [h2], fun c hc => ?_, ?_⟩
  · rw [List.mem_append, List.mem_append, List.mem_append] at hc
    rcases hc with ((hc | hc) | hc) | hc
    · rcases h1 with rfl | rfl
      · cases hc
      · rw [List.mem_singleton] at hc; subst hc; decide
    · exact dig_wordCh (h3 c hc)
    · rcases h4 with rfl | ⟨ds, _, hd, rfl⟩
      · cases hc
      · rcases List.mem_cons.1 hc with rfl | hc
        · decide
        · exact dig_wordCh (hd c hc)
    · rcases h5 with rfl | ⟨x, sg, ds, hx, hsg, _, hd, rfl⟩
      · cases hc
      · rcases List.mem_cons.1 hc with rfl | hc
        · rcases hx with rfl | rfl <;> decide
        · rcases List.mem_append.1 hc with hc | hc
          · rcases hsg with rfl | rfl | rfl
            · cases hc
            · rw [List.mem_singleton] at hc; subst hc; decide
            · rw [List.mem_singleton] at hc; subst hc; decide
          · exact dig_wordCh (hd c hc)
  · have hh : ∃ c t, sg ++ ip ++ fr ++ ex = c :: t ∧ (c = '-' ∨ IsDig c) := by
      cases ip with
      | nil => exact absurd rfl h2
      | cons d ds =>
        rcases h1 with rfl | rfl
        · exact ⟨d, _, rfl, .inr (h3 d (List.mem_cons_self ..))⟩
        · exact ⟨'-', _, rfl, .inl rfl⟩
    obtain ⟨c, t, e, hc⟩ := hh
    have hne : c ≠ 't' ∧ c ≠ 'f' ∧ c ≠ 'n' := by
      rcases hc with rfl | ⟨a, b⟩
      · decide
      · refine ⟨?_, ?_, ?_⟩ <;> (rintro rfl; revert b; decide)
    rw [e]
    unfold wordJ
    rw [if_neg (by intro h; cases h; exact hne.1 rfl), if_neg (by intro h; cases h; exact hne.2.1 rfl),
      if_neg (by intro h; cases h; exact hne.2.2 rfl)]

/-- a closing bracket or comma -/
def Stop (c : Char) : Prop := c = ',' ∨ c = ']' ∨ c = '}'

theorem stop_ws {c : Char} (h : Stop c) (t : List Char) : dropWs (c :: t) = c :: t :=
  dropWs_no (by rcases h with rfl | rfl | rfl <;> decide)

theorem stop_word {c : Char} (h : Stop c) (t : List Char) : NoWord (c :: t) := by
  intro x hx
  simp only [List.head?_cons, Option.some.injEq] at hx
  subst hx
  rcases h with rfl | rfl | rfl <;> decide

/-- behind its whitespace a text of the grammar does not begin with a closing bracket -/
theorem opens {t : List Char} {p : Piece} (h : G t p) :
    ∃ c r, dropWs t = c :: r ∧ c ≠ ']' ∧ c ≠ '}' ∧ ∀ x, dropWs (t ++ x) = c :: (r ++ x) := by
  have self : ∀ (c : Char) (r : List Char), wsCh c = false → c ≠ ']' → c ≠ '}' →
      ∃ c' r', dropWs (c :: r) = c' :: r' ∧ c' ≠ ']' ∧ c' ≠ '}' ∧ ∀ x, dropWs ((c :: r) ++ x) = c' :: (r' ++ x) :=
    fun c r h h1 h2 => ⟨c, r, dropWs_no h, h1, h2, fun x => dropWs_no h⟩
  induction h with
  | @wsl c t j hc _ ih =>
    obtain ⟨a, r, h1, h2, h3, h4⟩ := ih
    refine ⟨a, r, ?_, h2, h3, fun x => ?_⟩
    · rw [← h1]; exact dropWs_ws (w := [c]) (by simpa using hc)
    · rw [← h4 x]; exact dropWs_ws (w := [c]) (by simpa using hc)
  | @wsr c t j hc _ ih =>
    obtain ⟨a, r, h1, h2, h3, h4⟩ := ih
    refine ⟨a, r ++ [c], h4 _, h2, h3, fun x => ?_⟩
    rw [List.append_assoc, h4, List.append_assoc]
  | @num r h =>
    obtain ⟨h1, h2, _⟩ := num_chars h
    cases r with
    | nil => exact absurd rfl h1
    | cons c r =>
      obtain ⟨a, _, _, _, b, d⟩ := wordCh_not (h2 c (List.mem_cons_self ..))
      exact self c r a b d
  | str _ => exact self _ _ (by decide) (by decide) (by decide)
  | tru => exact self _ _ (by decide) (by decide) (by decide)
  | fls => exact self _ _ (by decide) (by decide) (by decide)
  | null => exact self _ _ (by decide) (by decide) (by decide)
  | arr0 _ => exact self _ _ (by decide) (by decide) (by decide)
  | arr _ => exact self _ _ (by decide) (by decide) (by decide)
  | obj0 _ => exact self _ _ (by decide) (by decide) (by decide)
  | obj _ => exact self _ _ (by decide) (by decide) (by decide)
  | one _ ih => exact ih
  | @more t u j l _ _ ih _ =>
    obtain ⟨a, r, h1, h2, h3, h4⟩ := ih
    refine ⟨a, r ++ ',' :: u, h4 _, h2, h3, fun x => ?_⟩
    rw [List.append_assoc, h4, List.append_assoc]
  | mem hw _ _ _ =>
    refine ⟨'"', _, (dropWs_ws hw).trans (dropWs_no (by decide)), by decide, by decide, fun x => ?_⟩
    rw [List.append_assoc, dropWs_ws hw, List.cons_append, dropWs_no (by decide)]
  | @mems t u m l _ _ ih _ =>
    obtain ⟨a, r, h1, h2, h3, h4⟩ := ih
    refine ⟨a, r ++ ',' :: u, h4 _, h2, h3, fun x => ?_⟩
    rw [List.append_assoc, h4, List.append_assoc]

/-- what the reader finds -/
def Reads (t : List Char) : Piece → Prop
  | .val j => ∀ n, 2 * t.length ≤ n → ∀ rest, NoWord rest → readV n (t ++ rest) = some (j, dropWs rest)
  | .elems l => ∀ n, 2 * t.length + 1 ≤ n → ∀ rest, readE n (t ++ ']' :: rest) = some (l, ']' :: rest)
  | .mems l =>
    (∀ n, 2 * t.length + 1 ≤ n → ∀ rest, readM n (t ++ '}' :: rest) = some (l, '}' :: rest)) ∧
    (∀ k u l' r', (∀ m, k ≤ m → readM m u = some (l', r')) →
      ∀ n, 2 * t.length + 1 + k ≤ n → readM n (t ++ ',' :: u) = some (l ++ l', r'))

theorem readM_mem {w r w' t k : List Char} {j : J} (hw : ∀ c ∈ w, IsWs c) (hr : StrRaw r k) (hw' : ∀ c ∈ w', IsWs c)
    (ih : Reads t (.val j)) {n : Nat} (hn : 2 * t.length ≤ n) {rest : List Char} (hrest : NoWord rest) :
    readS ((dropWs ((w ++ '"' :: (r ++ '"' :: (w' ++ ':' :: t))) ++ rest)).drop 1) =
      some (k, w' ++ ':' :: (t ++ rest)) ∧
    readV n ((dropWs (w' ++ ':' :: (t ++ rest))).drop 1) = some (j, dropWs rest) := by
  constructor
  · rw [List.append_assoc, dropWs_ws hw, List.cons_append, dropWs_no (by decide)]
    have := readS_raw hr (w' ++ ':' :: (t ++ rest))
    simpa using this
  · rw [dropWs_ws hw', dropWs_no (by decide)]
    exact ih n hn rest hrest

theorem readV_quote {t : List Char} {r : List Char} (h : dropWs t = '"' :: r) (n : Nat) :
    readV (n + 1) t = (readS r).map (fun x => (.str x.1, dropWs x.2)) := by
  rw [readV, h]; rfl

theorem g_reads {t : List Char} {p : Piece} (h : G t p) : Reads t p := by
  induction h with
  | @wsl c t j hc _ ih =>
    intro n hn rest hr
    have : readV n (c :: t ++ rest) = readV n (t ++ rest) := by
      cases n with
      | zero => rfl
      | succ n =>
        rw [readV.eq_def, readV.eq_def]
        simp only
        have : dropWs (c :: t ++ rest) = dropWs (t ++ rest) := dropWs_ws (w := [c]) (by simpa using hc)
        rw [this]
    rw [this]
    exact ih n (by simp only [List.length_cons] at hn; omega) rest hr
  | @wsr c t j hc _ ih =>
    intro n hn rest hr
    rw [List.append_assoc]
    have h1 := ih n (by simp only [List.length_append, List.length_cons, List.length_nil] at hn; omega) ([c] ++ rest) (by
      intro x hx
      simp only [List.cons_append, List.nil_append, List.head?_cons, Option.some.injEq] at hx
      subst hx
      rcases hc with rfl | rfl | rfl | rfl <;> decide)
    rw [h1, dropWs_ws (by simpa using hc)]
  | num h =>
    intro n hn rest hr
    obtain ⟨h1, h2, h3⟩ := num_chars h
    rename_i r
    have : 0 < r.length := List.length_pos_iff.2 h1
    obtain ⟨m, rfl⟩ : ∃ m, n = m + 1 := ⟨n - 1, by omega⟩
    rw [readV_word h1 h2 hr, h3]
  | @str r s h =>
    intro n hn rest hr
    obtain ⟨m, rfl⟩ : ∃ m, n = m + 1 := ⟨n - 1, by simp only [List.length_cons] at hn; omega⟩
    rw [readV_quote (r := r ++ '"' :: rest) (by rw [List.cons_append, dropWs_no (by decide)]; simp), readS_raw h]
    rfl
  | tru =>
    intro n hn rest hr
    obtain ⟨m, rfl⟩ : ∃ m, n = m + 1 := ⟨n - 1, by simp only [List.length_cons] at hn; omega⟩
    rw [readV_word (by simp) (by decide) hr]; rfl
  | fls =>
    intro n hn rest hr
    obtain ⟨m, rfl⟩ : ∃ m, n = m + 1 := ⟨n - 1, by simp only [List.length_cons] at hn; omega⟩
    rw [readV_word (by simp) (by decide) hr]; rfl
  | null =>
    intro n hn rest hr
    obtain ⟨m, rfl⟩ : ∃ m, n = m + 1 := ⟨n - 1, by simp only [List.length_cons] at hn; omega⟩
    rw [readV_word (by simp) (by decide) hr]; rfl
  | @arr0 w hw =>
    intro n hn rest hr
    obtain ⟨m, rfl⟩ : ∃ m, n = m + 1 := ⟨n - 1, by simp only [List.length_cons] at hn; omega⟩
    rw [readV.eq_def]
    have h1 : dropWs ('[' :: (w ++ [']']) ++ rest) = '[' :: (w ++ ']' :: rest) := by
      rw [List.cons_append, dropWs_no (by decide)]; simp
    have h2 : dropWs (w ++ ']' :: rest) = ']' :: rest := by rw [dropWs_ws hw, dropWs_no (by decide)]
    simp only [h1]
    rw [if_neg (by decide), if_pos trivial, h2]
    rfl
  | @arr t l h ih =>
    intro n hn rest hr
    simp only [List.length_cons, List.length_append, List.length_nil] at hn
    obtain ⟨m, rfl⟩ : ∃ m, n = m + 1 := ⟨n - 1, by omega⟩
    obtain ⟨c, r, _, hc, _, ho⟩ := opens h
    rw [readV.eq_def]
    have h1 : dropWs ('[' :: (t ++ [']']) ++ rest) = '[' :: (t ++ ']' :: rest) := by
      rw [List.cons_append, dropWs_no (by decide)]; simp
    simp only [h1]
    rw [if_neg (by decide), if_pos trivial, ho, if_neg (by simpa using hc), ih m (by omega) rest]
    rfl
  | @obj0 w hw =>
    intro n hn rest hr
    obtain ⟨m, rfl⟩ : ∃ m, n = m + 1 := ⟨n - 1, by simp only [List.length_cons] at hn; omega⟩
    rw [readV.eq_def]
    have h1 : dropWs ('{' :: (w ++ ['}']) ++ rest) = '{' :: (w ++ '}' :: rest) := by
      rw [List.cons_append, dropWs_no (by decide)]; simp
    have h2 : dropWs (w ++ '}' :: rest) = '}' :: rest := by rw [dropWs_ws hw, dropWs_no (by decide)]
    simp only [h1]
    rw [if_neg (by decide), if_neg (by decide), if_pos trivial, h2]
    rfl
  | @obj t l h ih =>
    intro n hn rest hr
    simp only [List.length_cons, List.length_append, List.length_nil] at hn
    obtain ⟨m, rfl⟩ : ∃ m, n = m + 1 := ⟨n - 1, by omega⟩
    obtain ⟨c, r, _, _, hc, ho⟩ := opens h
    rw [readV.eq_def]
    have h1 : dropWs ('{' :: (t ++ ['}']) ++ rest) = '{' :: (t ++ '}' :: rest) := by
      rw [List.cons_append, dropWs_no (by decide)]; simp
    simp only [h1]
    rw [if_neg (by decide), if_neg (by decide), if_pos trivial, ho, if_neg (by simpa using hc), ih.1 m (by omega) rest]
    rfl
  | @one t j _ ih =>
    intro n hn rest
    obtain ⟨m, rfl⟩ : ∃ m, n = m + 1 := ⟨n - 1, by omega⟩
    rw [readE, ih m (by omega) _ (stop_word (.inr (.inl rfl)) _), stop_ws (.inr (.inl rfl))]
    simp
  | @more t u j l _ _ ih1 ih2 =>
    intro n hn rest
    simp only [List.length_cons, List.length_append] at hn
    obtain ⟨m, rfl⟩ : ∃ m, n = m + 1 := ⟨n - 1, by omega⟩
    rw [List.append_assoc, List.cons_append, readE, ih1 m (by omega) _ (stop_word (.inl rfl) _), stop_ws (.inl rfl)]
    simp only
    rw [ih2 m (by omega) rest]
    rfl
  | @mem w r w' t k j hw hr hw' _ ih =>
    constructor
    · intro n hn rest
      simp only [List.length_cons, List.length_append] at hn
      obtain ⟨m, rfl⟩ : ∃ m, n = m + 1 := ⟨n - 1, by omega⟩
      obtain ⟨h1, h2⟩ := readM_mem hw hr hw' ih (n := m) (by omega) (stop_word (c := '}') (.inr (.inr rfl)) rest)
      rw [readM, h1]
      simp only [h2, stop_ws (c := '}') (.inr (.inr rfl))]
      simp
    · intro k' u l' r' hu n hn
      simp only [List.length_cons, List.length_append] at hn
      obtain ⟨m, rfl⟩ : ∃ m, n = m + 1 := ⟨n - 1, by omega⟩
      obtain ⟨h1, h2⟩ := readM_mem hw hr hw' ih (n := m) (by omega) (stop_word (c := ',') (.inl rfl) u)
      rw [readM, h1]
      simp only [h2, stop_ws (c := ',') (.inl rfl), hu m (by omega)]
      rfl
  | @mems t u m l _ _ ih1 ih2 =>
    constructor
    · intro n hn rest
      simp only [List.length_cons, List.length_append] at hn
      rw [List.append_assoc, List.cons_append]
      exact ih1.2 (2 * u.length + 1) (u ++ '}' :: rest) l ('}' :: rest) (fun k hk => ih2.1 k hk rest) n (by omega)
    · intro k u' l' r' hu n hn
      simp only [List.length_cons, List.length_append] at hn
      rw [List.append_assoc, List.cons_append]
      exact ih1.2 (2 * u.length + 1 + k) (u ++ ',' :: u') (l ++ l') r'
        (fun k' hk' => ih2.2 k u' l' r' hu k' hk') n (by omega)

end Gkc.Json
