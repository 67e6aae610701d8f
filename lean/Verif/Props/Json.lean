import Verif.JsonLemmas
import Verif.JsonRead
import Verif.Props.History
/-
C49: the JSON output is JSON.  Spec: JsonSpec.lean.
-/
namespace Gkc.Props
open Gkc.Hist Gkc.Json

/-! ### The document -/

theorem json_lines {e : Env} {ls : List Line} (hne : ls ≠ []) (h : ∀ l ∈ ls, LineOk e l) :
    G (linesText e ls) (.elems (ls.map (lineJ e))) := by
  induction ls with
  | nil => exact absurd rfl hne
  | cons a r ih =>
    cases r with
    | nil => exact .one (g_line (h a (List.mem_cons_self ..)))
    | cons b r =>
      exact .more (g_line (h a (List.mem_cons_self ..))) (ih (by simp) (fun l hl => h l (List.mem_cons_of_mem _ hl)))

/-- an answer the printer writes correctly -/
def AnswerOk (e : Env) (a : Option Nat × List Line) : Prop :=
  (∀ c, a.1 = some c → ∀ x ∈ e.clause c, x.Ok) ∧ a.2 ≠ [] ∧ ∀ l ∈ a.2, LineOk e l

theorem json_answer {e : Env} {a : Option Nat × List Line} (h : AnswerOk e a) :
    G (answerText e a) (.val (answerJ e a)) := by
  obtain ⟨ans, ls⟩ := a
  obtain ⟨h1, h2, h3⟩ := h
  have hp : G (('\n' :: '[' :: (linesText e ls ++ ['\n'] ++ [']'])))
      (.val (.arr (ls.map (lineJ e)))) := by
    have h4 := json_lines h2 h3
    have h5 : G (linesText e ls ++ ['\n']) (.elems (ls.map (lineJ e))) := by
      generalize hm : Piece.elems (ls.map (lineJ e)) = p at h4
      generalize linesText e ls = t at h4
      generalize ls.map (lineJ e) = js at hm ⊢
      induction h4 generalizing js with
      | one h => cases hm; exact .one (.wsr (.inr (.inl rfl)) h)
      | more a1 a2 i1 i2 =>
        cases hm
        have := G.more a1 (i2 _ rfl)
        simpa using this
      | _ => cases hm
    exact .wsl (.inr (.inl rfl)) (.arr h5)
  have hproof : ∀ w : List Char, (∀ c ∈ w, IsWs c) →
      G (w ++ '"' :: ("proof".toList ++ '"' :: ([] ++ ':' :: '\n' :: '[' :: (linesText e ls ++ ['\n'] ++ [']']))))
        (.mems [("proof".toList, .arr (ls.map (lineJ e)))]) := fun w hw =>
    .mem (w := w) (w' := []) hw (letters_raw (by decide)) (by intro c hc; cases hc) hp
  unfold answerText answerJ
  cases ans with
  | none =>
    have := G.obj (hproof ['\n'] ws_nl)
    simpa using this
  | some c =>
    have ha : G (['\n'] ++ '"' :: ("answer".toList ++ '"' :: ([] ++ ':' :: ' ' :: clauseText (e.clause c))))
        (.mems [("answer".toList, clauseJ (e.clause c))]) :=
      .mem (w := ['\n']) (w' := []) ws_nl (letters_raw (by decide)) (by intro c hc; cases hc)
        (.wsl (.inl rfl) (g_clause (h1 c rfl)))
    have := G.obj (G.mems ha (hproof ['\n'] ws_nl))
    simpa using this

theorem json_answers {e : Env} {as : List (Option Nat × List Line)} (hne : as ≠ []) (h : ∀ a ∈ as, AnswerOk e a) :
    G (answersText e as) (.elems (as.map (answerJ e))) := by
  induction as with
  | nil => exact absurd rfl hne
  | cons a r ih =>
    have ha := json_answer (h a (List.mem_cons_self ..))
    cases r with
    | nil => exact .one (.wsr (.inr (.inl rfl)) ha)
    | cons b r =>
      have h1 := elems_wsl ws_nl (ih (by simp) (fun l hl => h l (List.mem_cons_of_mem _ hl)))
      have := G.more ha h1
      simpa [answersText] using this

/-- C49.  When a proof was found, the text written in JSON mode is a JSON text, and its value is the object
with the result and, from print level 10 on, the list of answers, each with the clause of the answer and
the list of lines: number, rule with premises, clause.  Missing: documents with what `AnswerOk` excludes,
see the theorems below. -/
theorem C49_document_partial {e : Env} {level : Nat} {as : List (Option Nat × List Line)}
    (hne : as ≠ []) (h : ∀ a ∈ as, AnswerOk e a) : IsJson (docText e level as) (docJ e level as) := by
  have hres : ∀ (w : List Char), (∀ c ∈ w, IsWs c) →
      G (w ++ '"' :: ("result".toList ++ '"' :: ([] ++ ':' :: ' ' :: quoted "proof found".toList)))
        (.mems [("result".toList, .str "proof found".toList)]) := fun w hw =>
    .mem (w := w) (w' := []) hw (letters_raw (by decide)) (by intro c hc; cases hc)
      (.wsl (.inl rfl) (g_quoted (letters_raw (by decide))))
  have hlead : ∀ {t : List Char} {j : J}, G t (.val j) →
      G ((if 12 ≤ level then "\n\n".toList else []) ++ t) (.val j) := by
    intro t j ht
    refine g_wsl ?_ ht
    split
    · intro c hc
      have : c = '\n' := by simpa using hc
      exact .inr (.inl this)
    · intro c hc; cases hc
  unfold IsJson docText docJ
  refine hlead ?_
  by_cases hl : level < 10
  · rw [if_pos hl, if_pos hl]
    have := G.wsr (c := '\n') (.inr (.inl rfl)) (G.obj (hres [] (by intro c hc; cases hc)))
    simpa [quoted] using this
  · rw [if_neg hl, if_neg hl]
    have h1 := elems_wsl ws_nl (json_answers hne h)
    have h2 : G (['\n', '\n'] ++ '"' :: ("answers".toList ++ '"' :: ([] ++ ':' :: ' ' ::
        '[' :: (['\n'] ++ answersText e as ++ [']'])))) (.mems [("answers".toList, .arr (as.map (answerJ e)))]) :=
      .mem (w := ['\n', '\n']) (w' := []) (by intro c hc; exact .inr (.inl (by simpa using hc)))
        (letters_raw (by decide)) (by intro c hc; cases hc) (.wsl (.inl rfl) (.arr h1))
    have := G.wsr (c := '\n') (.inr (.inl rfl)) (G.obj (G.mems (hres [] (by intro c hc; cases hc)) h2))
    simpa [quoted] using this

/-- a step whose line the printer writes correctly -/
def StepShown (extra : Bool) : Step → Prop
  | .extprop => False
  | .factor .. => extra = true
  | .propinst .. => extra = true
  | _ => True

/-- clauses, terms and names the printer writes correctly -/
structure EnvOk (e : Env) : Prop where
  clause : ∀ c, ∀ x ∈ e.clause c, x.Ok
  term : ∀ w, (e.term w).Ok
  name : ∀ l, match e.name l with
    | .none => True
    | .str s => ∀ c ∈ s, PlainChar c ∧ c ≠ '"'
    | .int v => -2147483648 ≤ v.toInt ∧ v.toInt < 2147483648

theorem step_lineOk {e : Env} (he : EnvOk e) {st : Step} (hs : StepShown e.extra st) (num : Nat) (no : Nat → Nat)
    (cl : Option Nat) : LineOk e ⟨num, st.rule, st.items no, cl⟩ := by
  refine ⟨fun c _ => he.clause c, fun i _ => ?_, ?_⟩
  · cases i with
    | ref _ _ _ => trivial
    | term w => exact he.term w
    | subst v w => exact he.term w
  · cases st with
    | input => exact he.name _
    | extprop => exact hs.elim
    | factor c p1 p2 cuts => exact ⟨hs, by simp [Step.items]⟩
    | propinst c t cuts => exact ⟨hs, by simp [Step.items]⟩
    | resolve => simp [Step.items, Step.rule]
    | instgen => simp [Step.items, Step.rule]
    | propagate => simp [Step.items, Step.rule]
    | reflex => simp [Step.items, Step.rule]
    | para => simp [Step.items, Step.rule]
    | simplify => simp [Step.items, Step.rule]
    | arithinst => simp [Step.items, Step.rule]

/-- C49 for a proof: the histories are followed and numbered as in C48, and the lines are written as a
JSON text whose value lists them.  Missing: what `StepShown`, `EnvOk` and `Step.Fits` exclude. -/
theorem C49_proof_partial {S : Nat → HRec} {step : Nat → Step} (hS : HistStore S step) {fin : HRec} {st : Step}
    {n : Nat} (hE : HistEnd fin st n) (ans : Option Nat) {e : Env} (he : EnvOk e)
    (hs : ∀ c, Used step st c → StepShown e.extra (step c)) (hst : StepShown e.extra st) (level : Nat) :
    ∃ ls : List Line, listing S n fin ans = some ls ∧
      IsJson (docText e level [(ans, ls)]) (docJ e level [(ans, ls)]) := by
  obtain ⟨cs, _, hu, _, hl⟩ := C48_listing_partial hS hE ans
  refine ⟨_, hl, C49_document_partial (by simp) ?_⟩
  intro a ha
  rw [List.mem_singleton] at ha
  subst ha
  refine ⟨fun c _ => he.clause c, by simp, fun l hl => ?_⟩
  rw [List.mem_append, List.mem_map, List.mem_singleton] at hl
  rcases hl with ⟨c, hc, rfl⟩ | rfl
  · exact step_lineOk he (hs c ((hu c).1 hc)) _ _ _
  · exact step_lineOk he hst _ _ _

/-- a JSON text has one value -/
theorem C49_one_value {t : List Char} {j j' : J} (h : IsJson t j) (h' : IsJson t j') : j = j' := by
  have h1 := g_reads h (2 * t.length) (Nat.le_refl _) [] (by intro c hc; cases hc)
  have h2 := g_reads h' (2 * t.length) (Nat.le_refl _) [] (by intro c hc; cases hc)
  rw [h1] at h2
  cases h2
  rfl

/-- the number a row of digits stands for -/
def readDec (ds : List Char) : Nat := ds.foldl (fun n c => n * 10 + (c.toNat - 48)) 0

/-- the digits written for a number stand for it -/
theorem C49_digits (n : Nat) : readDec (dec n) = n := by
  have hd : ∀ d, d < 10 → (digit d).toNat - 48 = d := by
    intro d h
    rcases (by omega : d = 0 ∨ d = 1 ∨ d = 2 ∨ d = 3 ∨ d = 4 ∨ d = 5 ∨ d = 6 ∨ d = 7 ∨ d = 8 ∨ d = 9) with
      rfl | rfl | rfl | rfl | rfl | rfl | rfl | rfl | rfl | rfl <;> decide
  induction n using Nat.strongRecOn with
  | ind n ih =>
    by_cases h : n < 10
    · rw [dec_small h]
      simp [readDec, hd n h]
    · rw [dec_big h]
      unfold readDec at ih ⊢
      rw [List.foldl_append, ih (n / 10) (by omega)]
      simp only [List.foldl_cons, List.foldl_nil]
      rw [hd _ (by omega)]
      omega

/-! ### Texts which are not JSON -/

/-- state of a scanner: a value is expected, a value ended, inside a string, behind a backslash, inside a
word, or no JSON text begins like this -/
inductive ScanMode
  | exp | aft | str | esc | word | bad
deriving DecidableEq

/-- letters of numbers and literals -/
def wordChar (c : Char) : Bool := "0123456789-+.eEtrufalsn".toList.contains c

/-- whitespace -/
def wsChar (c : Char) : Bool := c = ' ' || c = '\n' || c = '\t' || c = '\r'

/-- one character -/
def scan (s : ScanMode × Int) (c : Char) : ScanMode × Int :=
  match s with
  | (.exp, d) =>
    if wsChar c then (.exp, d) else if c = '"' then (.str, d)
    else if c = '[' ∨ c = '{' then (.exp, d + 1)
    else if c = ']' ∨ c = '}' then (.aft, d - 1)
    else if wordChar c then (.word, d) else (.bad, d)
  | (.aft, d) =>
    if wsChar c then (.aft, d) else if c = ',' ∨ c = ':' then (.exp, d)
    else if c = ']' ∨ c = '}' then (.aft, d - 1) else (.bad, d)
  | (.word, d) =>
    if wordChar c then (.word, d) else if wsChar c then (.aft, d) else if c = ',' then (.exp, d)
    else if c = ']' ∨ c = '}' then (.aft, d - 1) else (.bad, d)
  | (.str, d) =>
    if c = '"' then (.aft, d) else if c = '\\' then (.esc, d) else if c.toNat < 32 then (.bad, d) else (.str, d)
  | (.esc, d) => if (escChar c).isSome ∨ c = 'u' then (.str, d) else (.bad, d)
  | (.bad, d) => (.bad, d)

/-- a text -/
def scanAll (s : ScanMode × Int) (t : List Char) : ScanMode × Int := t.foldl scan s

theorem scan_app (s : ScanMode × Int) (a b : List Char) : scanAll s (a ++ b) = scanAll (scanAll s a) b :=
  List.foldl_append ..

theorem scan_cons (s : ScanMode × Int) (c : Char) (b : List Char) : scanAll s (c :: b) = scanAll (scan s c) b := rfl

theorem wsChar_of {c : Char} (h : IsWs c) : wsChar c = true := by
  rcases h with rfl | rfl | rfl | rfl <;> decide

theorem scan_ws {w : List Char} (h : ∀ c ∈ w, IsWs c) (d : Int) :
    scanAll (.exp, d) w = (.exp, d) ∧ scanAll (.aft, d) w = (.aft, d) := by
  induction w with
  | nil => exact ⟨rfl, rfl⟩
  | cons c r ih =>
    have hc := wsChar_of (h c (List.mem_cons_self ..))
    have := ih (fun x hx => h x (List.mem_cons_of_mem _ hx))
    constructor
    · rw [scan_cons]; simp only [scan, hc, if_true]; exact this.1
    · rw [scan_cons]; simp only [scan, hc, if_true]; exact this.2

theorem hex_plain {c : Char} {v : Nat} (h : hexVal c = some v) : c ≠ '"' ∧ c ≠ '\\' ∧ ¬ c.toNat < 32 := by
  refine ⟨?_, ?_, ?_⟩
  · rintro rfl
    rw [show hexVal '"' = none from by decide] at h
    cases h
  · rintro rfl
    rw [show hexVal '\\' = none from by decide] at h
    cases h
  · intro hc
    unfold hexVal at h
    rw [if_neg (by omega), if_neg (by omega), if_neg (by omega)] at h
    cases h

theorem scan_str {c : Char} (h : c ≠ '"' ∧ c ≠ '\\' ∧ ¬ c.toNat < 32) (d : Int) : scan (.str, d) c = (.str, d) := by
  simp only [scan, h.1, h.2.1, h.2.2, if_false]

theorem scan_raw {r s : List Char} (h : StrRaw r s) (d : Int) : scanAll (.str, d) r = (.str, d) := by
  induction h with
  | nil => rfl
  | plain h1 h2 h3 _ ih => rw [scan_cons, scan_str ⟨h1, h2, by omega⟩]; exact ih
  | @esc x _ _ _ h1 _ ih =>
    rw [scan_cons, scan_cons]
    have : scan (scan (.str, d) '\\') x = (.str, d) := by
      show scan (.esc, d) x = _
      simp only [scan, h1, Option.isSome_some, true_or, if_true]
    rw [this]; exact ih
  | uni h1 h2 h3 h4 _ ih =>
    rw [scan_cons, scan_cons]
    have : scan (scan (.str, d) '\\') 'u' = (.str, d) := by
      show scan (.esc, d) 'u' = _
      simp only [scan, or_true, if_true]
    rw [this, scan_cons, scan_str (hex_plain h1), scan_cons, scan_str (hex_plain h2), scan_cons,
      scan_str (hex_plain h3), scan_cons, scan_str (hex_plain h4)]
    exact ih

theorem scan_word {t : List Char} (h : ∀ c ∈ t, wordChar c = true) (d : Int) :
    scanAll (.word, d) t = (.word, d) := by
  induction t with
  | nil => rfl
  | cons c r ih =>
    rw [scan_cons]
    simp only [scan, h c (List.mem_cons_self ..), if_true]
    exact ih (fun x hx => h x (List.mem_cons_of_mem _ hx))

theorem scan_words {t : List Char} (hne : t ≠ []) (h : ∀ c ∈ t, wordChar c = true) (d : Int) :
    scanAll (.exp, d) t = (.word, d) := by
  cases t with
  | nil => exact absurd rfl hne
  | cons c r =>
    have : scan (.exp, d) c = (.word, d) := by
      have hm : c ∈ "0123456789-+.eEtrufalsn".toList := by
        have := h c (List.mem_cons_self ..)
        unfold wordChar at this
        simpa using this
      have : ∀ x ∈ "0123456789-+.eEtrufalsn".toList, scan (.exp, d) x = (.word, d) := by
        have h2 : "0123456789-+.eEtrufalsn".toList.all (fun x => !wsChar x && decide (x ≠ '"') &&
            decide (¬ (x = '[' ∨ x = '{')) && decide (¬ (x = ']' ∨ x = '}')) && wordChar x) = true := by decide
        intro x hx
        have h3 := List.all_eq_true.1 h2 x hx
        simp only [Bool.and_eq_true, decide_eq_true_eq, Bool.not_eq_true'] at h3
        obtain ⟨⟨⟨⟨a1, a2⟩, a3⟩, a4⟩, a5⟩ := h3
        simp only [scan, a1, if_neg a2, if_neg a3, if_neg a4, a5, if_true, Bool.false_eq_true, if_false]
      exact this c hm
    rw [scan_cons, this]
    exact scan_word (fun x hx => h x (List.mem_cons_of_mem _ hx)) d

theorem dig_word {c : Char} (h : IsDig c) : wordChar c = true := by
  obtain ⟨h1, h2⟩ := h
  have : c = Char.ofNat c.toNat := (Char.ofNat_toNat c).symm
  rw [this]
  generalize c.toNat = n at h1 h2 ⊢
  rcases (by omega : n = 48 ∨ n = 49 ∨ n = 50 ∨ n = 51 ∨ n = 52 ∨ n = 53 ∨ n = 54 ∨ n = 55 ∨ n = 56 ∨ n = 57) with
    rfl | rfl | rfl | rfl | rfl | rfl | rfl | rfl | rfl | rfl <;> decide

theorem num_word {r : List Char} (h : NumOk r) : r ≠ [] ∧ ∀ c ∈ r, wordChar c = true := by
  obtain ⟨sg, ip, fr, ex, rfl, h1, ⟨h2, h3, _⟩, h4, h5⟩ := h
  refine ⟨by simp [h2], fun c hc => ?_⟩
  rw [List.mem_append, List.mem_append, List.mem_append] at hc
  rcases hc with ((hc | hc) | hc) | hc
  · rcases h1 with rfl | rfl
    · cases hc
    · rw [List.mem_singleton] at hc; subst hc; decide
  · exact dig_word (h3 c hc)
  · rcases h4 with rfl | ⟨ds, _, hd, rfl⟩
    · cases hc
    · rcases List.mem_cons.1 hc with rfl | hc
      · decide
      · exact dig_word (hd c hc)
  · rcases h5 with rfl | ⟨x, sg, ds, hx, hsg, _, hd, rfl⟩
    · cases hc
    · rcases List.mem_cons.1 hc with rfl | hc
      · rcases hx with rfl | rfl <;> decide
      · rcases List.mem_append.1 hc with hc | hc
        · rcases hsg with rfl | rfl | rfl
          · cases hc
          · rw [List.mem_singleton] at hc; subst hc; decide
          · rw [List.mem_singleton] at hc; subst hc; decide
        · exact dig_word (hd c hc)

/-- a value ended -/
def scanEnd (m : ScanMode) : Prop := m = .aft ∨ m = .word

theorem scan_end_ws {m : ScanMode} (h : scanEnd m) {c : Char} (hc : IsWs c) (d : Int) : scan (m, d) c = (.aft, d) := by
  rcases h with rfl | rfl
  · simp only [scan, wsChar_of hc, if_true]
  · have : wordChar c = false := by rcases hc with rfl | rfl | rfl | rfl <;> decide
    simp only [scan, this, wsChar_of hc, if_true, Bool.false_eq_true, if_false]

theorem scan_end_comma {m : ScanMode} (h : scanEnd m) (d : Int) : scan (m, d) ',' = (.exp, d) := by
  rcases h with rfl | rfl <;> rfl

theorem scan_end_close {m : ScanMode} (h : scanEnd m) (d : Int) :
    scan (m, d) ']' = (.aft, d - 1) ∧ scan (m, d) '}' = (.aft, d - 1) := by
  rcases h with rfl | rfl <;> exact ⟨rfl, rfl⟩

/-- the scanner accepts every JSON text -/
theorem scan_json {t : List Char} {p : Piece} (h : G t p) :
    ∀ d, ∃ m, scanEnd m ∧ scanAll (.exp, d) t = (m, d) := by
  induction h with
  | wsl hc _ ih =>
    intro d
    obtain ⟨m, h1, h2⟩ := ih d
    refine ⟨m, h1, ?_⟩
    rw [scan_cons]
    simp only [scan, wsChar_of hc, if_true]
    exact h2
  | wsr hc _ ih =>
    intro d
    obtain ⟨m, h1, h2⟩ := ih d
    refine ⟨.aft, .inl rfl, ?_⟩
    rw [scan_app, h2]
    exact scan_end_ws h1 hc d
  | num h =>
    intro d
    exact ⟨.word, .inr rfl, scan_words (num_word h).1 (num_word h).2 d⟩
  | str h =>
    intro d
    refine ⟨.aft, .inl rfl, ?_⟩
    rw [scan_cons]
    show scanAll (.str, d) _ = _
    rw [scan_app, scan_raw h]
    rfl
  | tru => exact fun d => ⟨.word, .inr rfl, rfl⟩
  | fls => exact fun d => ⟨.word, .inr rfl, rfl⟩
  | null => exact fun d => ⟨.word, .inr rfl, rfl⟩
  | arr0 hw =>
    intro d
    refine ⟨.aft, .inl rfl, ?_⟩
    rw [scan_cons]
    show scanAll (.exp, d + 1) _ = _
    rw [scan_app, (scan_ws hw _).1]
    show (ScanMode.aft, d + 1 - 1) = _
    rw [Int.add_sub_cancel]
  | arr _ ih =>
    intro d
    obtain ⟨m, h1, h2⟩ := ih (d + 1)
    refine ⟨.aft, .inl rfl, ?_⟩
    rw [scan_cons]
    show scanAll (.exp, d + 1) _ = _
    rw [scan_app, h2]
    show scan (m, d + 1) ']' = _
    rw [(scan_end_close h1 _).1, Int.add_sub_cancel]
  | obj0 hw =>
    intro d
    refine ⟨.aft, .inl rfl, ?_⟩
    rw [scan_cons]
    show scanAll (.exp, d + 1) _ = _
    rw [scan_app, (scan_ws hw _).1]
    show (ScanMode.aft, d + 1 - 1) = _
    rw [Int.add_sub_cancel]
  | obj _ ih =>
    intro d
    obtain ⟨m, h1, h2⟩ := ih (d + 1)
    refine ⟨.aft, .inl rfl, ?_⟩
    rw [scan_cons]
    show scanAll (.exp, d + 1) _ = _
    rw [scan_app, h2]
    show scan (m, d + 1) '}' = _
    rw [(scan_end_close h1 _).2, Int.add_sub_cancel]
  | one _ ih => exact ih
  | more _ _ ih1 ih2 =>
    intro d
    obtain ⟨m, h1, h2⟩ := ih1 d
    rw [scan_app, h2, scan_cons, scan_end_comma h1]
    exact ih2 d
  | mem hw hr hw' _ ih =>
    intro d
    rw [scan_app, (scan_ws hw d).1, scan_cons]
    show ∃ m, scanEnd m ∧ scanAll (.str, d) _ = _
    rw [scan_app, scan_raw hr, scan_cons]
    show ∃ m, scanEnd m ∧ scanAll (.aft, d) _ = _
    rw [scan_app, (scan_ws hw' d).2, scan_cons]
    exact ih d
  | mems _ _ ih1 ih2 =>
    intro d
    obtain ⟨m, h1, h2⟩ := ih1 d
    rw [scan_app, h2, scan_cons, scan_end_comma h1]
    exact ih2 d

/-- decidable test: the scanner refuses -/
theorem not_json {t : List Char}
    (h : (scanAll (.exp, 0) t).1 = .bad ∨ (scanAll (.exp, 0) t).2 ≠ 0) : ¬ ∃ j, IsJson t j := by
  rintro ⟨j, hj⟩
  obtain ⟨m, h1, h2⟩ := scan_json hj 0
  rw [h2] at h
  rcases h with h | h
  · rcases h1 with rfl | rfl <;> cases h
  · exact h rfl

/-- clauses of the examples -/
def jsClause (name : List Char) (arg : PT) : List PLit :=
  [⟨false, .uri name none, [arg]⟩, ⟨true, .uri ['q'] none, [.leaf (.var 2000)]⟩]

/-- an environment for the examples -/
def jsEnv (name : List Char) (arg : PT) (inName : List Char) : Env :=
  { clause := fun _ => jsClause name arg, term := fun _ => .leaf (.uri ['a'] none),
    name := fun _ => .str inName, prio := fun _ => 0, extra := false }

/-- a variable -/
def jsX : PT := .leaf (.var 2000)

/-- a list of lines with one step of factoring, written at the default print level, is not JSON: the
comma behind the list with the rule is missing, Reasoner/history.c:2161-2163 -/
theorem C49_merge_not_json :
    listing (fun _ => hrec .input) 9 (hrec (.factor 0 1 2 [])) (some 1) =
      some [⟨1, .input, [], some 0⟩, ⟨2, .merge, [.ref 1 [1, 2] none], some 1⟩] ∧
    ¬ ∃ j, IsJson (docText (jsEnv ['p'] jsX ['f']) 10
      [(some 1, [⟨1, .input, [], some 0⟩, ⟨2, .merge, [.ref 1 [1, 2] none], some 1⟩])]) j := by
  refine ⟨by decide +kernel, not_json (.inl (by decide +kernel))⟩

/-- the same for a propositional instance, Reasoner/history.c:2200-2202 -/
theorem C49_inst_not_json :
    ¬ ∃ j, IsJson (docText (jsEnv ['p'] jsX ['f']) 10
      [(none, [⟨1, .input, [], some 0⟩, ⟨2, .inst, [.ref 1 [] none, .term (.other 0)], none⟩])]) j :=
  not_json (.inl (by decide +kernel))

/-- a proof by the external solver: one bracket too many, Reasoner/history.c:2207-2216 and 2367-2369 -/
theorem C49_extprop_not_json :
    listing (fun _ => hrec .input) 9 (hrec .extprop) none = some [⟨1, .extprop, [], none⟩] ∧
    ¬ ∃ j, IsJson (docText (jsEnv ['p'] jsX ['f']) 10 [(none, [⟨1, .extprop, [], none⟩])]) j := by
  refine ⟨by decide +kernel, not_json (.inr (by decide +kernel))⟩

/-- a sum inside a term is written with an unquoted word -/
theorem C49_sum_not_json :
    ¬ ∃ j, IsJson (docText (jsEnv ['p'] (.node (.leaf (.uri ['+'] none)) [jsX, jsX]) ['f']) 10
      [(none, [⟨1, .input, [], some 0⟩])]) j :=
  not_json (.inl (by decide +kernel))

/-- a backslash in the name of a predicate is not escaped -/
theorem C49_backslash_not_json :
    ¬ ∃ j, IsJson (docText (jsEnv ['a', '\\', 'p'] jsX ['f']) 10 [(none, [⟨1, .input, [], some 0⟩])]) j :=
  not_json (.inl (by decide +kernel))

/-- a quote in the name of an input formula is not escaped -/
theorem C49_name_not_json :
    ¬ ∃ j, IsJson (docText (jsEnv ['p'] jsX ['a', '"', 'b']) 10 [(none, [⟨1, .input, [], some 0⟩])]) j :=
  not_json (.inl (by decide +kernel))

/-- an integer outside 32 bits is written as another one -/
theorem C49_integer_wrong :
    symText false (.int 4294967297) = ['1'] ∧ symJ false (.int 4294967297) = .num "4294967297".toList := by
  refine ⟨by decide +kernel, ?_⟩
  show J.num (decInt (4294967297 : BitVec 64).toInt) = _
  congr 1
  decide +kernel

/-- the hypotheses hold for a proof with quotes in a name, terms, and resolution -/
example : EnvOk (jsEnv ['a', '"', 'p'] (.node (.leaf (.uri ['g'] none)) [jsX, .leaf (.int 5)]) ['f']) ∧
    HistStore (fun c => hrec (exStep c)) exStep ∧ HistEnd (hrec (.simplify 4 [2] [1])) (.simplify 4 [2] [1]) 7 ∧
    (∀ c, StepShown false (exStep c)) := by
  refine ⟨⟨fun c x hx => ?_, fun w => ?_, fun l => ?_⟩,
    ⟨fun c => hrec_made _, fun c => ?_, fun c => hrec_quiet _, fun c => ?_⟩,
    ⟨hrec_made _, by simp [Step.Fits], hrec_quiet _, by decide, by decide⟩, fun c => ?_⟩
  · have hx : x ∈ jsClause ['a', '"', 'p'] (.node (.leaf (.uri ['g'] none)) [jsX, .leaf (.int 5)]) := hx
    simp only [jsClause, List.mem_cons, List.not_mem_nil, or_false] at hx
    rcases hx with rfl | rfl
    · simp [PLit.Ok, PT.Ok, PT.FieldOk, FieldsOk, Sym.Plain, Sym.NoOp, PlainChar, jsX]
    · simp [PLit.Ok, PT.Ok, Sym.Plain, PlainChar]
  · simp [jsEnv, PT.Ok, Sym.Plain, PlainChar]
  · simp [jsEnv, PlainChar]
  · unfold exStep; split <;> simp [Step.Fits]
  · unfold exStep; split <;> simp [Step.premises]
  · unfold exStep; split <;> trivial

/-- a document -/
example : docText (jsEnv ['a', '"', 'p'] (.node (.leaf (.uri ['g'] none)) [jsX, .leaf (.int 5)]) ['f']) 10
    [(none, [⟨1, .input, [], some 0⟩, ⟨2, .mp, [.ref 1 [1] none, .ref 1 [] none], none⟩])] =
    ("{\"result\": \"proof found\",\n\n\"answers\": [\n{\n\"proof\":\n[" ++
      "\n[1, [\"in\", \"f\"], [[\"a\\\"p\",[\"g\",\"?:X\",5]], [\"-q\",\"?:X\"]]]," ++
      "\n[2, [\"mp\", [1,1], 1], false]\n]}\n]}\n").toList := by decide +kernel

end Gkc.Props
