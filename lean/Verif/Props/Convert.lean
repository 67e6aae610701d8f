import Verif.ConvertLemmas
import Verif.Props.JsLogic
import Verif.Props.Json
/-
C60: a problem converted to JSON says the same.  Spec: ConvertSpec.lean.
-/
namespace Gkc.Props.Cv
open Gkc.Conv Gkc.Conv.Spec
open Gkc.Json (J IsJson G PlainChar)
open Gkc.Js (Jv)
open Gkc.Js.Spec (Symbols Reads Plain)
open Gkc.Clausify (Nm FInt)

/-- a value that is read as the formula of JSON-LD-LOGIC says the same -/
theorem the_same {f : F} (hf : f.WF []) {j : J} (h : jv j = some (toF [] f).json) : Says j f := by
  have hwf := f_wf f (sc := []) (by simp) hf
  obtain ⟨y, g, vs, run, rd, -, mem, sem⟩ := Js.C56_meaning_partial (toF [] f) hwf .other
  refine ⟨_, y, g, h, run, rd, fun D I ρ S v hI hR => ?_⟩
  rw [sem D I ρ S.js v hI hR]
  constructor
  · intro H w
    have := H (fun s => if s ∈ vs then w (String.ofList (s.toList.drop 2)) else v s) fun s hs => if_neg hs
    rw [f_sem S f (by simp) hf] at this
    refine (f_coin S f (sc := []) (by simp) hf _ _ (by simp) fun x _ hx => ?_).1 this
    have hx' : "?:" ++ x ∈ vs := (mem _).2 hx
    simp only [back, List.not_mem_nil, if_false, hx', if_true, qm_toList]
    simp
  · intro H v' _
    exact (f_sem S f (by simp) hf v').2 (H _)

/-- **C60, formulas.** The text printed for a formula is JSON, and its value is read by the prover as a formula that is true in
the same structures.  Missing, because it is false: what the theorems below show. -/
theorem C60_formula_partial (f : F) (hf : f.WF []) : ∃ j, IsJson (frmText f.tree) j ∧ Says j f := by
  obtain ⟨j, g, e⟩ := f_json f (bd := []) (sc := []) (fun x => by simp [bound]) hf
  exact ⟨j, g, the_same hf e⟩

/-- **C60, files.** The output is a JSON list of objects, one for each formula in the order of the input, with its name, its role
and a value that says the same, whatever was in the buffer before.  Missing, because it is false: formulas that are just a
proposition (C60_leftover), files that end with an include (C60_include_last). -/
theorem C60_file_partial (ls : List Line) (hl : ∃ x, ls.getLast? = some x ∧ x.isFrm = true) (hf : ∀ x ∈ ls, x.Fine) (buf : List Char) :
    ∃ js, IsJson (printFile buf (ls.map Line.entry)) (.arr js) ∧ List.Forall₂ Object (ls.flatMap Line.named) js := by
  obtain ⟨js, g, fa⟩ := loop_g ls hl hf buf
  refine ⟨js, ?_, ?_⟩
  · have := G.wsr (c := '\n') (.inr (.inl rfl)) (G.arr (Json.elems_wsl Json.ws_nl g))
    simpa [printFile, IsJson] using this
  · have hwf : ∀ i ∈ ls.flatMap Line.named, i.2.f.WF [] := by
      intro i hi
      obtain ⟨x, hx, hm⟩ := List.mem_flatMap.1 hi
      have := hf x hx
      cases x with
      | frm k =>
        simp only [Line.named, List.mem_singleton] at hm
        subst hm
        exact In.Fine.wf this
      | incl is =>
        simp only [Line.named, List.mem_map] at hm
        obtain ⟨k, hk, rfl⟩ := hm
        exact (this.2 k hk).wf
    generalize ls.flatMap Line.named = is at fa hwf
    clear g
    induction fa with
    | nil => exact .nil
    | cons h _ ih =>
      obtain ⟨l, rfl, e⟩ := h
      exact .cons ⟨l, rfl, the_same (hwf _ (by simp)) e⟩ (ih fun i hi => hwf i (by simp [hi]))

/-- the empty file -/
theorem C60_empty (buf : List Char) : IsJson (printFile buf []) (.arr []) :=
  G.wsr (c := '\n') (.inr (.inl rfl)) (G.arr0 (w := ['\n']) Json.ws_nl)

/-- `![X]: (p(X,'Big') => ?[Y]: ~ q(f(X,"an \" apple"),Y+3,Z))` -/
def sample : F := .all ["X"] (.bin .imp (.atom false "p" [.var "X", .name true "Big"])
  (.ex ["Y"] (.neg (.atom false "q" [.app false "f" [.var "X", .obj "an \" apple"], .arith "+" (.var "Y") (.num "3"), .var "Z"]))))

theorem sample_wf : sample.WF [] := by
  simp only [sample, F.WF, T.WF, WFL, PredSym, Sym, Spec.Var, Text, Num, F.Signed, Js.Spec.Name, Plain, PlainChar, ne_eq, reduceCtorEq, not_false_eq_true, true_and, true_implies, false_implies, ← List.isPrefixOf_iff_prefix]
  repeat' apply And.intro
  all_goals decide +kernel

example : frmText sample.tree = ("[\"forall\", [\"X\"], [[\"p\",\"X\",\"Big\"], \"=>\", [\"exists\", [\"Y\"], " ++
    "[\"-q\",[\"f\",\"X\",\"#:an \\\" apple\"],[\"+\",\"Y\",3],\"?:Z\"]]]]").toList := by decide +kernel

example : In.Fine ⟨"fof", "ax\"1", "axiom", sample⟩ := by
  refine ⟨?_, ?_, sample_wf, fun _ _ h => by cases h⟩
  · simp only [PlainChar]; decide +kernel
  · simp only [PlainChar]; decide +kernel

/-! ### What goes wrong -/

mutual
/-- the numbers in a value -/
def nums : J → List (List Char)
  | .num r => [r]
  | .str _ => []
  | .tru => []
  | .fls => []
  | .null => []
  | .arr l => numsL l
  | .obj l => numsM l
/-- the numbers in values -/
def numsL : List J → List (List Char)
  | [] => []
  | x :: xs => nums x ++ numsL xs
/-- the numbers in members -/
def numsM : List (List Char × J) → List (List Char)
  | [] => []
  | (_, x) :: xs => nums x ++ numsM xs
end

theorem nums_ok {t : List Char} {p : Json.Piece} (h : G t p) : ∀ r ∈ (match p with | .val j => nums j | .elems l => numsL l | .mems l => numsM l), Json.NumOk r := by
  induction h with
  | wsl _ _ ih => exact ih
  | wsr _ _ ih => exact ih
  | num h =>
    intro r hr
    simp only [nums, List.mem_singleton] at hr
    subst hr
    exact h
  | str _ => intro r hr; simp [nums] at hr
  | tru => intro r hr; simp [nums] at hr
  | fls => intro r hr; simp [nums] at hr
  | null => intro r hr; simp [nums] at hr
  | arr0 _ => intro r hr; simp [nums, numsL] at hr
  | arr _ ih => intro r hr; simp only [nums] at hr; exact ih r hr
  | obj0 _ => intro r hr; simp [nums, numsM] at hr
  | obj _ ih => intro r hr; simp only [nums] at hr; exact ih r hr
  | one _ ih => intro r hr; simp only [numsL, List.append_nil] at hr; exact ih r hr
  | more _ _ ih ih' =>
    intro r hr
    simp only [numsL, List.mem_append] at hr
    exact hr.elim (ih r) (ih' r)
  | mem _ _ _ _ ih => intro r hr; simp only [numsM, List.append_nil] at hr; exact ih r hr
  | @mems _ _ m _ _ _ ih ih' =>
    intro r hr
    obtain ⟨k, j⟩ := m
    simp only [numsM, List.mem_append] at hr
    rcases hr with hr | hr
    · exact ih r (by simpa [numsM] using hr)
    · exact ih' r hr

/-- a text in which something is missing where a value should be -/
theorem missing {t : List Char} (h : ((Json.readV (2 * t.length) t).elim true fun x => (nums x.1).contains []) = true) : ¬ ∃ j, IsJson t j := by
  rintro ⟨j, hj⟩
  have h1 := Json.g_reads hj (2 * t.length) (Nat.le_refl _) [] (by intro c hc; cases hc)
  rw [List.append_nil] at h1
  rw [h1] at h
  simp only [Option.elim_some, List.contains_iff_mem] at h
  obtain ⟨sign, ip, fr, ex, e, _, ⟨h1, _⟩, _⟩ := nums_ok hj [] h
  simp only [List.nil_eq, List.append_eq_nil_iff] at e
  exact h1 e.1.1.2

/-- a constant in quotes with the name of a quantified variable becomes the variable: `![X]: p(X,'X')` is printed like
`![X]: p(X,X)` -/
theorem C60_capture : frmText (F.all ["X"] (.atom false "p" [.var "X", .name true "X"])).tree =
    frmText (F.all ["X"] (.atom false "p" [.var "X", .var "X"])).tree := by decide +kernel

/-- and they are not the same -/
theorem C60_capture_differs : ∃ S : Struct Bool, S.means (fun _ => true) (.all ["X"] (.atom false "p" [.var "X", .var "X"])) ∧
    ¬ S.means (fun _ => true) (.all ["X"] (.atom false "p" [.var "X", .name true "X"])) := by
  refine ⟨⟨fun _ => true, fun _ => true, fun _ => true, fun _ _ => true, fun _ as => as = [true, true] ∨ as = [false, false]⟩, ?_, ?_⟩
  · intro v' _
    simp only [Struct.means, Struct.evL, Struct.ev]
    cases v' "X" <;> simp
  · intro h
    have := h (fun x => if x = "X" then false else true) (by simp)
    simp [Struct.means, Struct.evL, Struct.ev] at this

/-- a constant `'#:a'` becomes the distinct object `"a"` -/
theorem C60_object : frmText (F.atom false "p" [.name true "#:a"]).tree = frmText (F.atom false "p" [.obj "a"]).tree := by decide +kernel

/-- a constant `'?:X'` becomes a variable -/
theorem C60_variable : frmText (F.atom false "p" [.name true "?:X"]).tree = frmText (F.atom false "p" [.var "X"]).tree := by decide +kernel

/-- a name that begins with `$true` is printed as true: `$truely` -/
theorem C60_true : frmText (F.prop true "$truely").tree = frmText (F.const true).tree ∧
    frmText (F.atom false "p" [.name true "$falsehood"]).tree = "[\"p\",false]".toList := by decide +kernel

/-- a backslash is not escaped: the name `'a\b'` of three characters is printed as a JSON string of two -/
theorem C60_backslash : IsJson (frmText (F.prop true "a\\b").tree) (.str ['a', Char.ofNat 8]) :=
  G.str (r := ['a', '\\', 'b']) (.plain (by decide) (by decide) (by decide) (.esc (by decide) .nil))

/-- other names with a backslash are no JSON at all: `'a\c'` -/
theorem C60_backslash_not_json : ¬ ∃ j, IsJson (frmText (F.prop true "a\\c").tree) j := not_json (.inl (by decide +kernel))

/-- a number with a zero in front is printed as it is, which is no JSON number -/
theorem C60_zero (r : List Char) (h : r ≠ []) (hd : ∀ c ∈ r, 48 ≤ c.toNat ∧ c.toNat ≤ 57) : ¬ Json.NumOk ('0' :: r) := by
  rintro ⟨sign, ip, fr, ex, e, hs, ⟨h1, h2, h3⟩, hfr, hex⟩
  rcases hs with rfl | rfl
  · rw [List.nil_append] at e
    cases ip with
    | nil => exact h1 rfl
    | cons c ip =>
      simp only [List.cons_append, List.cons.injEq] at e
      obtain ⟨rfl, e⟩ := e
      have hz := h3 rfl
      simp only [List.cons.injEq, true_and] at hz
      subst hz
      rw [List.nil_append] at e
      rcases hfr with rfl | ⟨ds, -, -, rfl⟩
      · rcases hex with rfl | ⟨c, sg, ds, hc, -, -, -, rfl⟩
        · exact h e
        · rw [List.nil_append] at e
          have := hd c (by rw [e]; simp)
          rcases hc with rfl | rfl <;> exact absurd this (by decide)
      · have := hd '.' (by rw [e]; simp)
        exact absurd this (by decide)
  · simp at e

/-- the text of such a number -/
example : sub true false [] (T.num "007").tree = "007".toList := by decide +kernel

/-- lists are not expanded: `p([a,b])` is printed like `p('$$lst'(a(b)))`; the brackets of a list become an application -/
theorem C60_list : frmText (.list [sym false "p", .list [word "$$lst", .list [sym false "a", sym false "b"]]]) =
    frmText (F.atom false "p" [.app true "$$lst" [.app false "a" [.name false "b"]]]).tree ∧
    expandE (.list [sym false "p", .list [word "$$lst", .list [sym false "a", sym false "b"]]]) =
      .list [sym false "p", .list [word "$$lst", .list [sym false "a", sym false "b"]]] := by
  refine ⟨by decide +kernel, by simp [expandE, sym]⟩

/-- a formula that is just a proposition is printed without an end: what the buffer had behind it comes after it -/
theorem C60_leftover : ¬ ∃ j, IsJson (printFile [] ([.frm ⟨"fof", "a", "axiom", .atom false "long_name" [.name false "x"]⟩,
    .frm ⟨"fof", "b", "axiom", .prop false "p"⟩].map Line.entry)) j := not_json (.inl (by decide +kernel))

/-- what it is -/
example : printFile [] ([.frm ⟨"fof", "a", "axiom", .atom false "long_name" [.name false "x"]⟩, .frm ⟨"fof", "b", "axiom", .prop false "p"⟩].map Line.entry) =
    ("[\n{\"@name\":\"a\",\"@role\":\"axiom\",\"@logic\":[\"long_name\",\"x\"]},\n" ++
      "{\"@name\":\"b\",\"@role\":\"axiom\",\"@logic\":\"p\"ong_name\",\"x\"]}\n]\n").toList := by decide +kernel

/-- a file that ends with an include has a comma too much -/
theorem C60_include_last : ¬ ∃ j, IsJson (printFile [] ([.frm ⟨"fof", "a", "axiom", .atom false "p" [.name false "x"]⟩,
    .incl [⟨"fof", "b", "axiom", .atom false "q" [.name false "x"]⟩]].map Line.entry)) j := missing (by decide +kernel)

/-- an included file without formulas as well -/
theorem C60_include_empty : ¬ ∃ j, IsJson (printFile [] ([.incl [], .frm ⟨"fof", "a", "axiom", .atom false "p" [.name false "x"]⟩].map Line.entry)) j :=
  not_json (.inl (by decide +kernel))

/-- roles of TPTP that the reader of JSON refuses -/
theorem C60_roles : ∀ r ∈ ["definition", "lemma", "theorem", "corollary", "plain", "type"], r ∉ knownRoles := by decide

/-- the buffer: after a formula of more than 1980 characters the printer believes it has 3960; an included file starts
again with the belief in 990 and sets the buffer to 1980; then nothing is done for a formula of 2500 characters -/
theorem C60_buffer : guarantee 990 990 2980 = some (3960, 3960) ∧ guarantee 990 3960 1100 = some (1980, 1980) ∧
    guarantee 3960 1980 3500 = some (3960, 1980) := by decide +kernel

/-- as long as one belief is kept, the buffer is large enough -/
theorem C60_buffer_kept {len real need : Nat} (h : len ≤ real) {l r : Nat} (hg : guarantee len real need = some (l, r)) :
    need ≤ r ∧ l ≤ r := by
  have grow_ok : ∀ (k len n : Nat), grow len need k = some n → need < n := by
    intro k
    induction k with
    | zero => intro len n h; cases h
    | succ k ih =>
      intro len n h
      rw [grow] at h
      split at h
      · cases h
      · split at h
        · rename_i h'
          cases h
          exact h'
        · exact ih _ _ h
  unfold guarantee at hg
  split at hg
  · rename_i hn
    cases hg
    exact ⟨Nat.le_trans hn h, h⟩
  · cases e : grow len need 40 with
    | none => rw [e] at hg; cases hg
    | some n =>
      rw [e] at hg
      cases hg
      exact ⟨Nat.le_of_lt (grow_ok 40 len _ e), Nat.le_refl _⟩

end Gkc.Props.Cv
