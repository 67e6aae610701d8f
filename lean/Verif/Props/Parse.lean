import Verif.ParseLemmas
import Verif.ScanLemmas
import Mathlib.Data.List.Forall2
/-
C66: a formula is read as it is written.  Spec: ParseSpec.lean.
-/
namespace Gkc.Props.Ps
open Gkc.Ps Gkc.Ps.Spec
open Gkc.Conv (Lst)
open Gkc.Conv.Spec (T F Op sym word trees Struct)

/-- the answer of the parser for some statements: a list, the last statement first -/
def answer (ss : List Stmt) : Outcome := .accept (if ss = [] then none else some (.tree (.list (ss.map Stmt.tree).reverse)))

/-- **C66, any text.** With `l`, connectives may be mixed without parentheses. -/
theorem reads {l : Bool} {ss : List Stmt} {ts : List Tok} {txt : List Char} (hf : File l ss ts) (ht : Text ts txt) :
    ∃ n, ∀ m ≥ n, parse m txt = some (answer ss) := by
  obtain ⟨n, hn⟩ := run_file hf
  refine ⟨n, fun m hm => ?_⟩
  rw [parse, lex_text ht]
  exact run_more hn hm

/-- **C66.** A file in which the statements are written by the rules of TPTP is accepted, and the parser makes the lists for exactly these
statements: nothing else is read, whatever stands before or after a statement, however the text is laid out, and with any comments.
Missing, because it is false: names or numbers directly followed by certain characters (C66_no_blanks), backslashes in quotes
(C66_backslash), names in quotes with more than 1023 bytes (C66_long), very long statements.  Not covered: `?x` as a variable,
floating point numbers, dates, clauses with brackets of Otter, annotations after the formula, `include`. -/
theorem C66_file_partial {ss : List Stmt} {ts : List Tok} {txt : List Char} (hf : File false ss ts) (ht : Text ts txt) :
    ∃ n, ∀ m ≥ n, parse m txt = some (answer ss) := reads hf ht

/-- **C66, connectives without parentheses.** Where TPTP wants parentheses, their absence is no error: the connectives are applied from left
to right.  So there is no precedence: `p => q & r` is `(p => q) & r`. -/
theorem C66_left_partial {ss : List Stmt} {ts : List Tok} {txt : List Char} (hf : File true ss ts) (ht : Text ts txt) :
    ∃ n, ∀ m ≥ n, parse m txt = some (answer ss) := reads hf ht

/-- **C66, size.** The stacks of the parser are large enough for statements with fewer than 9997 tokens. -/
theorem C66_size {l : Bool} {s : Stmt} {ts : List Tok} {n : Nat} (h : Writes l s ts n) : n ≤ ts.length := writes_le h

/-- two statements have the same kind, name and role, and formulas with the same meaning -/
def Same (s s' : Stmt) : Prop :=
  (s.head.map fun h => (h.1, h.2.2)) = (s'.head.map fun h => (h.1, h.2.2)) ∧
  (capsF s.frm → capsF s'.frm → ∀ (D : Type) (S : Struct D) (v : String → D), S.pr "$true" [] ∧ ¬ S.pr "$false" [] → (S.means v s.frm ↔ S.means v s'.frm))

theorem same_of_tree {s s' : Stmt} (h : s.tree = s'.tree) (h1 : s.head.isSome = true) (h2 : s'.head.isSome = true) : Same s s' := by
  obtain ⟨hd, f⟩ := s
  obtain ⟨hd', f'⟩ := s'
  cases hd with
  | none => simp at h1
  | some x =>
    cases hd' with
    | none => simp at h2
    | some y =>
      obtain ⟨k, q, n, r⟩ := x
      obtain ⟨k', q', n', r'⟩ := y
      simp only [Stmt.tree, Lst.list.injEq, List.cons.injEq, and_true] at h
      obtain ⟨e1, e2, e3, e4⟩ := h
      refine ⟨?_, fun cf cg D S v hS => means_tree S hS f f' e4 cf cg v⟩
      simp [sym_inj e1, sym_inj e2, sym_inj e3]

/-- **C66, no ambiguity.** A text of statements with names says one thing only: however it is divided into tokens and statements by the rules,
the statements are the same and mean the same. -/
theorem C66_unambiguous {l l' : Bool} {ss ss' : List Stmt} {ts ts' : List Tok} {txt : List Char} (hf : File l ss ts) (ht : Text ts txt) (hf' : File l' ss' ts')
    (ht' : Text ts' txt) (h1 : ∀ s ∈ ss, s.head.isSome = true) (h2 : ∀ s ∈ ss', s.head.isSome = true) : List.Forall₂ Same ss ss' := by
  obtain ⟨n, hn⟩ := reads hf ht
  obtain ⟨n', hn'⟩ := reads hf' ht'
  have e : answer ss = answer ss' := by
    have h := hn (max n n') (by omega)
    rw [hn' (max n n') (by omega)] at h
    exact (Option.some.inj h).symm
  have e2 : ss.map Stmt.tree = ss'.map Stmt.tree := by
    simp only [answer, Outcome.accept.injEq] at e
    split at e <;> split at e
    · rename_i a b; rw [a, b]
    · cases e
    · cases e
    · simpa using e
  clear e hn hn' hf hf' ht ht'
  induction ss generalizing ss' with
  | nil => cases ss' with
    | nil => exact .nil
    | cons _ _ => simp at e2
  | cons s ss ih => cases ss' with
    | nil => simp at e2
    | cons s' ss' =>
      simp only [List.map_cons, List.cons.injEq] at e2
      exact .cons (same_of_tree e2.1 (h1 _ (by simp)) (h2 _ (by simp))) (ih (fun x hx => h1 x (by simp [hx])) (fun x hx => h2 x (by simp [hx])) e2.2)

/-- the text of a token is copied before the next token is read: in the states after a token with a text, yypact is YYPACT_NINF, and
the rule is one that copies (rules 46 to 57) -/
theorem prims_copied : ∀ s ∈ [1, 2, 3, 4, 5, 6, 7, 8, 9, 10, 11, 14], yypact[s]? = some (-33) ∧ ∃ r ∈ List.range 58, 46 ≤ r ∧ yydefact[s]? = some (r : Int) := by
  decide +kernel

/-! ### A file -/

/-- a file with a blank, an end of a line and a comment -/
def sample : List Char := "fof(a,axiom,! [X]:\n(p(X)&'r s')).%end\n".toList

/-- what it says -/
def sampleStmt : Stmt := ⟨some ("fof", false, "a", "axiom"), .all ["X"] (.bin .and (.atom false "p" [.var "X"]) (.prop true "r s"))⟩

theorem sample_file : ∃ ts, File false [sampleStmt] ts ∧ Text ts sample := by
  refine ⟨_, .cons (.item "fof" false "a" "axiom" (.unit (.all ["X"] (by simp)
      (.paren (.chain (.two .and (.atom false "p" [.var "X"] (by simp) (by simp [okL, ok])) (.prop true "r s"))))))) (by decide) .nil, ?_⟩
  have wd : ∀ (c : Char) (cs : List Char), (c.toNat ∈ List.range' 97 26 ++ List.range' 65 26 ∧ ∀ x ∈ cs, x.toNat ∈ List.range' 97 26) →
      Shown ⟨11, String.ofList (c :: cs)⟩ (c :: cs) wordChar := by
    intro c cs ⟨h1, h2⟩
    refine .word ?_ fun x hx => .inl ?_
    · simp [letter] at h1 ⊢; omega
    · have := h2 x hx; simp [letter] at this ⊢; omega
  have ne : ∀ (d : Char) (r : List Char), d.toNat ∈ [40, 44, 93, 41, 32] → ∀ c, (d :: r).head? = some c → ¬ wordChar c := by
    intro d r hd c hc
    cases hc
    simp [wordChar, letter, digit] at hd ⊢
    omega
  have sg : ∀ {t : Tok} {d : Char} {r : List Char} {ts : List Tok}, (t, String.ofList [d], ([] : List Char)) ∈ signs → Text ts r → Text (t :: ts) (d :: r) := by
    intro t d r ts h hr
    have := Text.cons .nil (Shown.sign h) (by simp) hr
    simpa using this
  have w : ∀ (c : Char) (cs : List Char) (d : Char) {r : List Char} {ts : List Tok}, (c.toNat ∈ List.range' 97 26 ++ List.range' 65 26 ∧ ∀ x ∈ cs, x.toNat ∈ List.range' 97 26) →
      d.toNat ∈ [40, 44, 93, 41, 32] → Text ts (d :: r) → Text (⟨11, String.ofList (c :: cs)⟩ :: ts) (c :: (cs ++ d :: r)) := by
    intro c cs d r ts h hd hr
    exact Text.cons .nil (wd c cs h) (ne d r hd) hr
  have fin : ∀ {ts us : List Tok} {txt : List Char}, Text us txt → txt = sample → us = ts → Text ts sample := by
    intro ts us txt h1 h2 h3
    rw [← h2, ← h3]
    exact h1
  exact fin (
    w 'f' ['o', 'f'] '(' (by decide) (by decide) <| sg (t := lpar) (d := '(') (by decide) <|
    w 'a' [] ',' (by decide) (by decide) <| sg (t := comma) (d := ',') (by decide) <|
    w 'a' ['x', 'i', 'o', 'm'] ',' (by decide) (by decide) <| sg (t := comma) (d := ',') (by decide) <|
    .cons .nil (.sign (t := ⟨30, ""⟩) (x := "!") (no := ['=', '-']) (by decide)) (by intro c hc; cases hc; decide) <|
    .cons (.blank ' ' (by simp) .nil) (.sign (t := lbr) (x := "[") (no := []) (by decide)) (by simp) <|
    w 'X' [] ']' (by decide) (by decide) <| sg (t := rbr) (d := ']') (by decide) <| sg (t := colon) (d := ':') (by decide) <|
    .cons (.blank '\n' (by simp) .nil) (.sign (t := lpar) (x := "(") (no := []) (by decide)) (by simp) <|
    w 'p' [] '(' (by decide) (by decide) <| sg (t := lpar) (d := '(') (by decide) <|
    w 'X' [] ')' (by decide) (by decide) <| sg (t := rpar) (d := ')') (by decide) <|
    sg (t := ⟨27, ""⟩) (d := '&') (by decide) <|
    .cons .nil (.quoted (cs := ['r', ' ', 's']) (by simp) (by decide) (by decide) (by decide)) (by simp) <|
    sg (t := rpar) (d := ')') (by decide) <| sg (t := rpar) (d := ')') (by decide) <| sg (t := dot) (d := '.') (by decide) <|
    .nil (.line ['e', 'n', 'd'] (by decide) .nil)) (by decide +kernel) (by decide +kernel)

example : ∃ n, ∀ m ≥ n, parse m sample = some (answer [sampleStmt]) := by
  obtain ⟨ts, h1, h2⟩ := sample_file
  exact C66_file_partial h1 h2

/-- the hypotheses of C66_left_partial: `p => q & r.` -/
example : File true [⟨none, .bin .and (.bin .imp (.prop false "p") (.prop false "q")) (.prop false "r")⟩]
    [name false "p", ⟨18, "=>"⟩, name false "q", ⟨27, ""⟩, name false "r", dot] :=
  .cons (.bare (.chain (.more .and .imp (.inl rfl) (.two .imp (.prop false "p") (.prop false "q")) (.prop false "r")))) (by decide) .nil

/-- the hypotheses of C66_unambiguous -/
example : ∃ ts, File false [sampleStmt] ts ∧ Text ts sample ∧ ∀ s ∈ [sampleStmt], s.head.isSome = true := by
  obtain ⟨ts, h1, h2⟩ := sample_file
  exact ⟨ts, h1, h2, by simp [sampleStmt]⟩

/-! ### What is read differently -/

/-- **C66, negative.** Without blanks `<=>` becomes `=>`: `p<` is taken for a name.  `p<=q` is read as an equation. -/
theorem C66_no_blanks :
    parse 60 "p <=> q.".toList = some (answer [⟨none, .bin .eqv (.prop false "p") (.prop false "q")⟩]) ∧
    parse 60 "p<=>q.".toList = some (answer [⟨none, .bin .imp (.prop false "p<") (.prop false "q")⟩]) ∧
    parse 60 "p<=q.".toList = some (answer [⟨none, .eq (.name false "p<") (.name false "q")⟩]) :=
  ⟨isTree_eq (by decide +kernel), isTree_eq (by decide +kernel), isTree_eq (by decide +kernel)⟩

/-- **C66, negative.** A missing operand is not an error: in its place comes what the stack was left with, here the `q` of the statement
before, and with nothing there a value that was never set. -/
theorem C66_missing_operand :
    parse 200 "fof(a,axiom,(p & q)). fof(b,axiom,r & ).".toList =
      some (answer [⟨some ("fof", false, "a", "axiom"), .bin .and (.prop false "p") (.prop false "q")⟩,
        ⟨some ("fof", false, "b", "axiom"), .bin .and (.prop false "r") (.prop false "q")⟩]) ∧
    parse 200 "fof(b,axiom,r & ).".toList = some .undef :=
  ⟨isTree_eq (by decide +kernel), isUndef_eq (by decide +kernel)⟩

/-- **C66, negative.** Products do not bind more strongly than sums, a sum after a difference is subtracted, and an equation next to them is
taken for an operand.  A quotient, which the documentation mentions, is a syntax error. -/
theorem C66_arithmetic :
    parse 100 "p(2*3+4).".toList = some (answer [⟨none, .atom false "p" [.arith "*" (.num "2") (.arith "+" (.num "3") (.num "4"))]⟩]) ∧
    parse 100 "p(9-3+2).".toList = some (answer [⟨none, .atom false "p" [.arith "-" (.num "9") (.arith "+" (.num "3") (.num "2"))]⟩]) ∧
    parse 100 "9-3=c.".toList = some (.accept (some (.tree (.list [.list [word "-", (T.num "9").tree, .list [word "=", (T.num "3").tree, (T.name false "c").tree]]])))) ∧
    parse 100 "p(1/2).".toList = some .error ∧
    parse 100 "p(-5).".toList = some (.accept (some (.tree (.list [.list [sym false "p", .list [word "not", (T.num "5").tree]]])))) :=
  ⟨isTree_eq (by decide +kernel), isTree_eq (by decide +kernel), isTree_eq (by decide +kernel), isError_eq (by decide +kernel), isTree_eq (by decide +kernel)⟩

/-- **C66, negative.** A quote or a comment that is not closed ends the file without an error. -/
theorem C66_unclosed :
    parse 60 "p. 'abc. q.".toList = some (answer [⟨none, .prop false "p"⟩]) ∧
    parse 60 "p. /* abc. q.".toList = some (answer [⟨none, .prop false "p"⟩]) :=
  ⟨isTree_eq (by decide +kernel), isTree_eq (by decide +kernel)⟩

/-- **C66, negative.** Characters that are not known are left out without an error. -/
theorem C66_unknown_characters : parse 60 "p & ; # ^ q.".toList = some (answer [⟨none, .bin .and (.prop false "p") (.prop false "q")⟩]) := isTree_eq (by decide +kernel)

/-- **C66, negative.** In quotes a backslash cannot be written as TPTP wants it, with another backslash: the quote after it does not end the name. -/
theorem C66_backslash : parse 60 "p('a\\\\'). q('b').".toList = some .error := isError_eq (by decide +kernel)

/-- **C66, negative.** A name in quotes with 1024 bytes or more is written behind the end of the buffer for it (undefined behaviour). -/
theorem C66_long {cs : List Char} (hb : '\\' ∉ cs) (hl : 1024 ≤ bytes cs) (r : List Char) (n : Nat) :
    parse n ('\'' :: (cs.flatMap (escaped '\'') ++ '\'' :: r)) = some .undef := by
  rw [parse, lex_over hb hl]

example : '\\' ∉ List.replicate 1024 'a' ∧ 1024 ≤ bytes (List.replicate 1024 'a') := by
  constructor
  · exact fun h => absurd (List.eq_of_mem_replicate h) (by decide)
  · rw [bytes, List.map_replicate, List.sum_replicate_nat]; decide

end Gkc.Props.Ps
