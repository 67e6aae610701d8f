import Verif.Include
import Verif.Props.ProblemSearch
/-
C68: a problem in several files is read as if the included files stood in the place of the `include` statements.
C69: the word after `SZS status`.

Specification: the first section.  Model: Include.lean.
-/
namespace Gkc.Props.Inc
open Gkc Gkc.Clausify Gkc.Pb Gkc.Loop Gkc.Props.Pb
open Gkc.Ps.Spec (File Text Stmt)
open Gkc.Conv (Lst Atm)
open Gkc.Conv.Spec (T F Op sym word trees Struct)

/-! ### Problems in several files (specification) -/

/-- a `fof` statement -/
def IsFof (s : Stmt) : Prop := ∃ q n r, s.head = some ("fof", q, n, r)

/-- what the word after `SZS status` says of a problem.  `Theorem`: a conjecture follows from the other statements.  `Unsatisfiable`: there is no conjecture, and the statements
contradict each other. -/
def Says (P : List Stmt) (w : String) : Prop :=
  w = "Theorem" ∧ (∃ s ∈ P, Goal s) ∧ Consequence P ∨ w = "Unsatisfiable" ∧ (∀ s ∈ P, ¬ Goal s) ∧ Consequence P

/-- the statement `include('s').` -/
def inc (s : String) : Stmt := ⟨none, .atom false "include" [.name true s]⟩

/-- the file `s` in a folder; `none` is the folder in which the program runs -/
def at' : Option String → String → String
  | some d, s => d ++ "/" ++ s
  | none, s => s

/-- the file lies in the folder -/
def In (f : String) (d : Option String) : Prop := ∃ n, '/' ∉ n.toList ∧ f = at' d n

/-- the folder for axioms, as TPTP has it -/
def library (w : World) : String := match w.env with
  | some e => e ++ "/"
  | none => "/opt/TPTP/"

/-- from the folder `d` the name `s` leads to `f`: a file in that folder, or else in the folder for axioms -/
def Leads (w : World) (d : Option String) (s f : String) : Prop :=
  f = at' d s ∧ (w.files f).isSome ∨ w.files (at' d s) = none ∧ f = library w ++ s

/-- `Expands w ds l b P Q`: with the included files in the place of the `include` statements, `P` becomes `Q`.  The names lead to the same files from
each of the folders `ds`, and the files lie in these folders.  In an included file (`b`) there are no formulas alone. -/
inductive Expands (w : World) (ds : Option String → Prop) (l : Bool) : Bool → List Stmt → List Stmt → Prop
  | nil {b : Bool} : Expands w ds l b [] []
  | stmt {b : Bool} {s : Stmt} {P Q : List Stmt} (hb : b = true → s.head.isSome = true) (h : Expands w ds l b P Q) : Expands w ds l b (s :: P) (s :: Q)
  | incl {b : Bool} {s f : String} {d : Option String} {txt : List Char} {ts : List Gkc.Ps.Tok} {P P' Q R : List Stmt} (hs : s.toList.head? ≠ some '#')
      (hl : ∀ d, ds d → Leads w d s f) (hd : In f d) (hds : ds d) (hw : w.files f = some txt) (hf : File l P' ts) (ht : Text ts txt)
      (h' : Expands w ds l true P' R) (h : Expands w ds l b P Q) : Expands w ds l b (inc s :: P) (R ++ Q)

/-! ### Folders -/

theorem toList_at (d : String) (n : String) : (at' (some d) n).toList = d.toList ++ '/' :: n.toList := by
  simp [at']

theorem parent_at {d : Option String} {n : String} (h : '/' ∉ n.toList) : parent (at' d n) = d := by
  have h1 : ∀ (xs ys : List Char), '/' ∉ xs → (xs ++ ys).dropWhile (· != '/') = ys.dropWhile (· != '/') := by
    intro xs ys hx
    induction xs with
    | nil => rfl
    | cons x xs ih =>
      simp only [List.mem_cons, not_or] at hx
      have : (x != '/') = true := by simpa using fun e => hx.1 e.symm
      simp only [List.cons_append, List.dropWhile_cons, this, if_true]
      exact ih hx.2
  unfold parent
  cases d with
  | none =>
    have := h1 n.toList.reverse [] (by simpa using h)
    simp only [List.append_nil] at this
    simp [at', this]
  | some d =>
    rw [toList_at]
    have := h1 n.toList.reverse ('/' :: d.toList.reverse) (by simpa using h)
    simp [this]

theorem In.parent {f : String} {d : Option String} (h : In f d) : parent f = d := by
  obtain ⟨n, h, rfl⟩ := h
  exact parent_at h

theorem lookup_eq {w : World} {cur s f : String} (hs : s.toList.head? ≠ some '#') (h : Leads w (parent cur) s f) : lookup w cur s = f := by
  simp only [lookup, if_neg hs]
  generalize parent cur = d at h ⊢
  have key : ∀ x, x = at' d s → (if (w.files x).isSome = true then x else (match w.env with
      | some e => e ++ "/"
      | none => "/opt/TPTP/") ++ s) = f := by
    rintro x rfl
    rcases h with ⟨rfl, h⟩ | ⟨h, rfl⟩
    · rw [if_pos h]
    · rw [h]
      simp [library]
  cases d with
  | none => exact key _ rfl
  | some d => exact key _ rfl

theorem lookup_leads {w : World} {cur s : String} (hs : s.toList.head? ≠ some '#') : Leads w (parent cur) s (lookup w cur s) := by
  have key : ∃ f, Leads w (parent cur) s f := by
    by_cases h : (w.files (at' (parent cur) s)).isSome = true
    · exact ⟨_, .inl ⟨rfl, h⟩⟩
    · exact ⟨_, .inr ⟨by simpa using h, rfl⟩⟩
  obtain ⟨f, h⟩ := key
  rw [lookup_eq hs h]
  exact h

/-! ### The loop -/

variable {w : World}

theorem each_err {rec : Bool → String → List Char → Imp} {b : Bool} {xs : List Lst} {s : Reading} (h : s.err = true) : each rec w b xs s = .done s := by
  cases xs with
  | nil => rfl
  | cons x xs => simp [each, h]

theorem each_append {rec : Bool → String → List Char → Imp} {b : Bool} (ys : List Lst) : ∀ (xs : List Lst) (s : Reading),
    each rec w b (xs ++ ys) s = match each rec w b xs s with
      | .done s' => each rec w b ys s'
      | r => r
  | [], s => rfl
  | x :: xs, s => by
    simp only [List.cons_append, each]
    split
    · rename_i h
      exact (each_err h).symm
    · cases round rec w b x s with
      | done s' => exact each_append ys xs s'
      | undef => rfl
      | more => rfl

/-- where the one is done, the other is done as well -/
def Le (rec rec' : Bool → String → List Char → Imp) : Prop := ∀ b f t, rec b f t ≠ .more → rec' b f t = rec b f t

theorem inclFile_le {rec rec' : Bool → String → List Char → Imp} (h : Le rec rec') {x : Lst} {s : Reading} (hm : inclFile rec w x s ≠ .more) :
    inclFile rec' w x s = inclFile rec w x s := by
  unfold inclFile at hm ⊢
  split
  · rename_i a
    simp only at hm ⊢
    split
    · rename_i ha
      rw [if_pos ha] at hm
      split
      · rfl
      · rename_i txt e
        rw [e] at hm
        simp only at hm
        rw [h _ _ _ fun e => hm (by rw [e])]
    · rfl
  · rfl

theorem round_le {rec rec' : Bool → String → List Char → Imp} (h : Le rec rec') {b : Bool} {x : Lst} {s : Reading} (hm : round rec w b x s ≠ .more) :
    round rec' w b x s = round rec w b x s := by
  unfold round at hm ⊢
  cases e : givenIn b x with
  | incl =>
    rw [e] at hm
    exact inclFile_le h hm
  | _ => rfl

theorem each_le {rec rec' : Bool → String → List Char → Imp} (h : Le rec rec') {b : Bool} : ∀ {xs : List Lst} {s : Reading}, each rec w b xs s ≠ .more →
    each rec' w b xs s = each rec w b xs s
  | [], _, _ => rfl
  | x :: xs, s, hm => by
    simp only [each] at hm ⊢
    split
    · rfl
    · rename_i he
      rw [if_neg he] at hm
      rw [round_le h fun e => hm (by rw [e])]
      cases e : round rec w b x s with
      | done s' =>
        rw [e] at hm
        exact each_le h hm
      | _ => rfl

theorem parse_le {n m : Nat} {txt : List Char} {o : Gkc.Ps.Outcome} (h : n ≤ m) (e : Gkc.Ps.parse n txt = some o) : Gkc.Ps.parse m txt = some o := by
  unfold Gkc.Ps.parse at e ⊢
  cases hx : Gkc.Ps.lex txt with
  | none => rw [hx] at e; exact e
  | some x => rw [hx] at e; exact Gkc.Ps.run_more e h

theorem load_le {n m : Nat} (h : n ≤ m) : ∀ {d e : Nat}, d ≤ e → Le (load w n d) (load w m e)
  | 0, _, _ => fun _ _ _ hm => absurd rfl hm
  | d + 1, 0, hd => absurd hd (by omega)
  | d + 1, e + 1, hd => by
    intro b f t hm
    simp only [load] at hm ⊢
    cases ho : Gkc.Ps.parse n t with
    | none => rw [ho] at hm; exact absurd rfl hm
    | some o =>
      rw [parse_le h ho]
      rw [ho] at hm
      cases o with
      | accept v =>
        cases v with
        | none => rfl
        | some v =>
          cases v with
          | tree x =>
            cases x with
            | list xs => exact each_le (load_le h (by omega)) hm
            | atom a => rfl
          | _ => rfl
      | _ => rfl

/-- more rounds and a deeper recursion do not change the outcome -/
theorem load_one {n m d e : Nat} {b : Bool} {f : String} {t : List Char} {r r' : Reading} (h : load w n d b f t = .done r) (h' : load w m e b f t = .done r') : r = r' := by
  have h1 := load_le (w := w) (Nat.le_max_left n m) (Nat.le_max_left d e) b f t (by rw [h]; exact Imp.noConfusion)
  have h2 := load_le (w := w) (Nat.le_max_right n m) (Nat.le_max_right d e) b f t (by rw [h']; exact Imp.noConfusion)
  rw [h1, h, h'] at h2
  cases h2
  rfl

/-! ### What is read -/

theorem inc_tree (s : String) : (inc s).tree = .list [sym false "include", .atom ⟨7, s, some "c"⟩] := rfl

theorem given_inc (b : Bool) (s : String) : givenIn b (inc s).tree = .incl := by
  simp [givenIn, inc_tree, isStmt, isUri_sym, Gkc.Pb.given]

theorem givenIn_ok {rl : String → SRole} {b : Bool} {s : Stmt} (hs : StmtOk s) (hk : ∀ u ∈ uses s.frm, Props.Pb.Keeps rl u) (hb : b = true → s.head.isSome = true) :
    givenIn b s.tree = givenOf s := by
  unfold givenIn
  rw [if_neg, given_ok hs hk]
  obtain ⟨hd, f⟩ := s
  cases hd with
  | none =>
    cases b with
    | false => simp
    | true => cases hb rfl
  | some x =>
    obtain ⟨k, q, n, r⟩ := x
    rcases hs with rfl | ⟨rfl, _, _⟩ <;> simp [Ps.Spec.Stmt.tree, isStmt, isUri_sym]

theorem round_ok {rl : String → SRole} {rec : Bool → String → List Char → Imp} {b : Bool} {s : Stmt} (hs : StmtOk s) (hk : ∀ u ∈ uses s.frm, Props.Pb.Keeps rl u)
    (hb : b = true → s.head.isSome = true) (st : Reading) :
    round rec w b s.tree st = .done { st with hasFof := st.hasFof || isStmt "fof" 3 s.tree, out := st.out ++ [givenOf s], own := st.own ++ [givenOf s] } := by
  unfold round
  rw [givenIn_ok hs hk hb]
  cases e : givenOf s with
  | item _ => rfl
  | clause _ => rfl
  | _ =>
    exfalso
    unfold givenOf at e
    split at e
    · split at e <;> cases e
    · cases e

theorem Fine.sub {rl : String → SRole} {P Q : List Stmt} (h : Fine rl Q) (hs : ∀ s ∈ P, s ∈ Q) : Fine rl P :=
  ⟨h.sig, fun s m => h.ok s (hs s m), fun s m => h.keeps s (hs s m), fun s m => h.apart s (hs s m)⟩

theorem load_file {l : Bool} {P : List Stmt} {ts : List Gkc.Ps.Tok} {txt : List Char} (hf : File l P ts) (ht : Text ts txt) :
    ∃ N, ∀ n ≥ N, ∀ d b f, load w n (d + 1) b f txt = each (load w n d) w b (P.map Ps.Spec.Stmt.tree).reverse ⟨f, false, false, [], []⟩ := by
  obtain ⟨N, hN⟩ := Props.Ps.reads hf ht
  refine ⟨N, fun n hn d b f => ?_⟩
  rw [load, hN n hn, Props.Ps.answer]
  by_cases e : P = []
  · simp [e, each]
  · simp [e]

theorem fof_iff {s : Stmt} (hs : StmtOk s) : isStmt "fof" 3 s.tree = true ↔ IsFof s := by
  obtain ⟨hd, f⟩ := s
  cases hd with
  | none =>
    have := given_bare hs (s := "fof") (n := 3) (by simp)
    simp [Ps.Spec.Stmt.tree, this, IsFof]
  | some x =>
    obtain ⟨k, q, n, r⟩ := x
    simp [Ps.Spec.Stmt.tree, isStmt, isUri_sym, IsFof]

/-- the loop on the statements of a file does what it would do on the statements with the included files in their places -/
theorem each_ok {rl : String → SRole} {ds : Option String → Prop} {l b : Bool} {P Q : List Stmt} (h : Expands w ds l b P Q) : Fine rl Q →
    ∃ N, ∀ n ≥ N, ∀ d ≥ N, ∀ st : Reading, st.err = false → ds (parent st.filename) → ∃ st', each (load w n d) w b (P.map Ps.Spec.Stmt.tree).reverse st = .done st' ∧
      st'.err = false ∧ ds (parent st'.filename) ∧ st'.out = st.out ++ (Q.map givenOf).reverse ∧ (st'.hasFof = true → st.hasFof = true ∨ ∃ s ∈ Q, IsFof s) := by
  induction h with
  | nil => exact fun _ => ⟨0, fun n _ d _ st h1 h2 => ⟨st, rfl, h1, h2, by simp, .inl⟩⟩
  | @stmt b s P Q hb h ih =>
    intro hQ
    obtain ⟨N, hN⟩ := ih (Fine.sub hQ fun x m => .tail _ m)
    refine ⟨N, fun n hn d hd st h1 h2 => ?_⟩
    obtain ⟨st', e, h1', h2', ho, hF⟩ := hN n hn d hd st h1 h2
    refine ⟨{ st' with hasFof := st'.hasFof || isStmt "fof" 3 s.tree, out := st'.out ++ [givenOf s], own := st'.own ++ [givenOf s] }, ?_, h1', h2', ?_, ?_⟩
    · rw [List.map_cons, List.reverse_cons, each_append, e]
      simp only [each, h1', Bool.false_eq_true, if_false]
      rw [round_ok (hQ.ok s (.head _)) (hQ.keeps s (.head _)) hb]
      simp only [h1']
    · simp [ho]
    · intro hh
      rcases Bool.or_eq_true _ _ ▸ hh with hh | hh
      · exact (hF hh).imp id fun ⟨x, m, hx⟩ => ⟨x, .tail _ m, hx⟩
      · exact .inr ⟨s, .head _, (fof_iff (hQ.ok s (.head _))).1 hh⟩
  | @incl b s f d txt ts P P' Q R hs hl hd hds hw hf ht h' h ih' ih =>
    intro hQ
    obtain ⟨N, hN⟩ := ih (Fine.sub hQ fun x m => List.mem_append_right _ m)
    obtain ⟨N', hN'⟩ := ih' (Fine.sub hQ fun x m => List.mem_append_left _ m)
    obtain ⟨N2, hN2⟩ := load_file (w := w) hf ht
    refine ⟨N + N' + N2 + 1, fun n hn k hk st h1 h2 => ?_⟩
    obtain ⟨st1, e1, h11, h12, ho1, hF1⟩ := hN n (by omega) k (by omega) st h1 h2
    obtain ⟨k, rfl⟩ : ∃ j, k = j + 1 := ⟨k - 1, by omega⟩
    obtain ⟨st2, e2, h21, h22, ho2, hF2⟩ := hN' n (by omega) k (by omega) ⟨f, false, false, [], []⟩ rfl (by rw [hd.parent]; exact hds)
    have step : round (load w n (k + 1)) w b (inc s).tree st1 = .done { st2 with out := st1.out ++ st2.out, own := st1.own } := by
      unfold round
      rw [given_inc]
      simp only [inc_tree, inclFile, lookup_eq hs (hl _ h12), hw, hN2 n (by omega), e2]
      rfl
    refine ⟨{ st2 with out := st1.out ++ st2.out, own := st1.own }, ?_, h21, h22, ?_, fun hh => ?_⟩
    · rw [List.map_cons, List.reverse_cons, each_append, e1]
      simp only [each, h11, Bool.false_eq_true, if_false, step]
    · simp [ho1, ho2]
    · rcases hF2 hh with hh | ⟨x, m, hx⟩
      · cases hh
      · exact .inr ⟨x, List.mem_append_left _ m, hx⟩

theorem load_ok {rl : String → SRole} {ds : Option String → Prop} {l : Bool} {P Q : List Stmt} {ts : List Gkc.Ps.Tok} {name : String} {txt : List Char} {d0 : Option String}
    (hf : File l P ts) (ht : Text ts txt) (hn : In name d0) (hd : ds d0) (he : Expands w ds l false P Q) (hQ : Fine rl Q) :
    ∃ N, ∀ n ≥ N, ∀ d ≥ N, ∃ r, load w n d false name txt = .done r ∧ r.err = false ∧ r.out = (Q.map givenOf).reverse ∧ (r.hasFof = true → ∃ s ∈ Q, IsFof s) := by
  obtain ⟨N, hN⟩ := each_ok he hQ
  obtain ⟨N2, hN2⟩ := load_file (w := w) hf ht
  refine ⟨N + N2 + 1, fun n h d hd' => ?_⟩
  obtain ⟨k, rfl⟩ : ∃ j, d = j + 1 := ⟨d - 1, by omega⟩
  obtain ⟨r, e, h1, _, ho, hF⟩ := hN n (by omega) k (by omega) ⟨name, false, false, [], []⟩ rfl (by rw [hn.parent]; exact hd)
  exact ⟨r, by rw [hN2 n (by omega), e], h1, by simpa using ho, fun h => (hF h).resolve_left Bool.false_ne_true⟩

theorem load_is {rl : String → SRole} {ds : Option String → Prop} {l : Bool} {P Q : List Stmt} {ts : List Gkc.Ps.Tok} {name : String} {txt : List Char} {d0 : Option String}
    (hf : File l P ts) (ht : Text ts txt) (hn : In name d0) (hd : ds d0) (he : Expands w ds l false P Q) (hQ : Fine rl Q) {n d : Nat} {r : Reading}
    (h : load w n d false name txt = .done r) : r.err = false ∧ r.out = (Q.map givenOf).reverse ∧ (r.hasFof = true → ∃ s ∈ Q, IsFof s) := by
  obtain ⟨N, hN⟩ := load_ok hf ht hn hd he hQ
  obtain ⟨r', e, h1⟩ := hN N (Nat.le_refl _) N (Nat.le_refl _)
  cases load_one h e
  exact h1

/-- without `include` statements: the loop -/
theorem each_plain {rl : String → SRole} {rec : Bool → String → List Char → Imp} : ∀ {P : List Stmt}, Fine rl P → ∀ {st : Reading}, st.err = false →
    ∃ st', each rec w false (P.map Ps.Spec.Stmt.tree).reverse st = .done st' ∧ st'.err = false ∧ (st'.hasFof = true ↔ st.hasFof = true ∨ ∃ s ∈ P, IsFof s) ∧
      st'.out = st.out ++ (P.map givenOf).reverse
  | [], _, st, h => ⟨st, rfl, h, by simp, by simp⟩
  | s :: P, hP, st, h => by
    obtain ⟨st', e, h1, h2, h3⟩ := each_plain (rec := rec) (Fine.sub hP fun x m => .tail _ m) h
    refine ⟨{ st' with hasFof := st'.hasFof || isStmt "fof" 3 s.tree, out := st'.out ++ [givenOf s], own := st'.own ++ [givenOf s] }, ?_, h1, ?_, by simp [h3]⟩
    · rw [List.map_cons, List.reverse_cons, each_append, e]
      simp only [each, h1, Bool.false_eq_true, if_false]
      rw [round_ok (hP.ok s (.head _)) (hP.keeps s (.head _)) (by simp)]
      simp only [h1]
    have := fof_iff (hP.ok s (.head _))
    simp only [Bool.or_eq_true, h2, this, List.mem_cons, exists_eq_or_imp]
    rw [or_assoc, or_comm (b := IsFof s)]

theorem load_plain {rl : String → SRole} {l : Bool} {P : List Stmt} {ts : List Gkc.Ps.Tok} {name : String} {txt : List Char} (hf : File l P ts) (ht : Text ts txt)
    (hP : Fine rl P) {n d : Nat} {r : Reading} (hr : load w n d false name txt = .done r) : (r.hasFof = true ↔ ∃ s ∈ P, IsFof s) ∧ r.out = (P.map givenOf).reverse := by
  obtain ⟨N2, hN2⟩ := load_file (w := w) hf ht
  obtain ⟨st', e, _, h2, h3⟩ := each_plain (w := w) (rec := load w N2 0) hP (st := ⟨name, false, false, [], []⟩) rfl
  cases load_one hr ((hN2 N2 (Nat.le_refl _) 0 false name).trans e)
  exact ⟨by simpa using h2, by simpa using h3⟩

/-! ### The properties -/

/-- **C68, every statement is read.** The reading ends, without an error.  Each statement of the problem, with the included files in their places, becomes exactly one formula, in the
opposite order; the formula means what the statement says; and it is marked as conjecture exactly if the statement is one. -/
theorem C68_everything_is_read {rl : String → SRole} {ds : Option String → Prop} {l : Bool} {P Q : List Stmt} {ts : List Gkc.Ps.Tok} {name : String} {txt : List Char}
    {d0 : Option String} (hf : File l P ts) (ht : Text ts txt) (hn : In name d0) (hd : ds d0) (he : Expands w ds l false P Q) (hQ : Fine rl Q) :
    ∃ N, ∀ n ≥ N, ∀ d ≥ N, ∃ r, load w n d false name txt = .done r ∧ r.err = false ∧
      List.Forall₂ (fun x st => ∃ g, (x = .item ⟨true, g⟩ ∧ Goal st ∨ x = .item ⟨false, g⟩ ∧ ¬ Goal st ∨ x = .clause g ∧ ¬ Goal st) ∧
        ∀ (D : Type) (S : Struct D), Normal S → ∀ τ, (foOf S).str.Val exVar τ → ((foOf S).str.fint.holds τ g ↔ S.means (fun x => τ (uri x)) st.frm)) r.out Q.reverse := by
  obtain ⟨N, hN⟩ := load_ok hf ht hn hd he hQ
  refine ⟨N, fun n h1 d h2 => ?_⟩
  obtain ⟨r, e, h3, h4, _⟩ := hN n h1 d h2
  refine ⟨r, e, h3, ?_⟩
  rw [h4, ← List.map_reverse, List.forall₂_map_left_iff]
  refine List.forall₂_same.2 fun st hst => ?_
  have hst : st ∈ Q := List.mem_reverse.1 hst
  refine ⟨fr st.frm, ?_, fun D S hS τ hτ => holds_F (link hS) st.frm hτ fun u hu => agree hS (hQ.keeps st hst u hu)⟩
  cases e : givenOf st with
  | item it =>
    obtain ⟨e1, e2⟩ := givenOf_item e
    obtain ⟨cj, g⟩ := it
    cases e1
    cases cj with
    | true => exact .inl ⟨rfl, e2.1 rfl⟩
    | false => exact .inr (.inl ⟨rfl, fun g => Bool.noConfusion (e2.2 g)⟩)
  | clause f =>
    obtain ⟨e1, _, e3⟩ := givenOf_clause (hQ.ok st hst) e
    exact .inr (.inr ⟨by rw [e1], e3⟩)
  | _ =>
    exfalso
    unfold givenOf at e
    split at e
    · split at e <;> cases e
    · cases e

theorem each_mem {rec : Bool → String → List Char → Imp} {b : Bool} : ∀ {xs : List Lst} {s r : Reading}, each rec w b xs s = .done r → r.err = false →
    ∀ x ∈ xs, ∃ s1 s2, round rec w b x s1 = .done s2 ∧ s2.err = false
  | [], _, _, _, _, _, hx => by cases hx
  | x :: xs, s, r, h, hr, y, hy => by
    simp only [each] at h
    split at h
    · rename_i he
      cases h
      rw [he] at hr
      cases hr
    · cases e : round rec w b x s with
      | done s' =>
        rw [e] at h
        simp only at h
        have h' : s'.err = false := by
          by_contra hc
          rw [Bool.not_eq_false] at hc
          rw [each_err hc] at h
          cases h
          rw [hc] at hr
          cases hr
        rcases List.mem_cons.1 hy with rfl | hy
        · exact ⟨s, s', e, h'⟩
        · exact each_mem h hr y hy
      | undef => rw [e] at h; cases h
      | more => rw [e] at h; cases h

/-- **C68, errors are kept.** If a file is read without an error, it has no syntax error, no statement in it is an error, and each included file that was found was read without
an error (and so on, to any depth). -/
theorem C68_no_error_is_lost {n d : Nat} {b : Bool} {name : String} {txt : List Char} {r : Reading} (h : load w n (d + 1) b name txt = .done r) (hr : r.err = false) :
    ∃ xs, statements n txt = some xs ∧ (∀ x ∈ xs, givenIn b x ≠ .error) ∧
      ∀ s, (inc s).tree ∈ xs → s.toList.head? ≠ some '#' → ∃ c f, Leads w c s f ∧ (w.files f = none ∨ ∃ t r', w.files f = some t ∧ load w n d true f t = .done r' ∧ r'.err = false) := by
  have fin : ∀ {xs : List Lst}, each (load w n d) w b xs ⟨name, false, false, [], []⟩ = .done r → (∀ x ∈ xs, givenIn b x ≠ .error) ∧
      ∀ s, (inc s).tree ∈ xs → s.toList.head? ≠ some '#' → ∃ c f, Leads w c s f ∧ (w.files f = none ∨ ∃ t r', w.files f = some t ∧ load w n d true f t = .done r' ∧ r'.err = false) := by
    intro xs h
    refine ⟨fun x hx he => ?_, fun s hs hn => ?_⟩
    · obtain ⟨s1, s2, e, h2⟩ := each_mem h hr x hx
      simp only [round, he] at e
      cases e
      cases h2
    · obtain ⟨s1, s2, e, h2⟩ := each_mem h hr _ hs
      unfold round at e
      rw [given_inc] at e
      simp only [inc_tree, inclFile, beq_self_eq_true, if_true] at e
      refine ⟨parent s1.filename, lookup w s1.filename s, lookup_leads hn, ?_⟩
      · cases hf : w.files (lookup w s1.filename s) with
        | none => exact .inl rfl
        | some t =>
          rw [hf] at e
          simp only at e
          cases hl : load w n d true (lookup w s1.filename s) t with
          | done r' =>
            rw [hl] at e
            cases e
            exact .inr ⟨t, r', rfl, hl, h2⟩
          | _ => rw [hl] at e; cases e
  rw [load] at h
  cases ho : Gkc.Ps.parse n txt with
  | none => rw [ho] at h; cases h
  | some o =>
    rw [ho] at h
    cases o with
    | accept v =>
      cases v with
      | none => exact ⟨[], by rw [statements, ho], by simp, by simp⟩
      | some v =>
        cases v with
        | tree x =>
          cases x with
          | list xs => exact ⟨xs, by rw [statements, ho], fin h⟩
          | atom a => cases h
        | _ => cases h
    | undef => cases h
    | error => cases h; cases hr
    | exhausted => cases h; cases hr

/-- **C68.** What is proved from a problem in several files follows from what they say together.

Partial: as C67, and: the names of the included files lead to the same files from all the folders in which files of the problem lie (see the negative theorem below), there
are no lists of names in `include` statements, and in an included file there are no formulas alone. -/
theorem C68_proof_means_consequence_partial {rl : String → SRole} {ds : Option String → Prop} {l : Bool} {P Q : List Stmt} {ts : List Gkc.Ps.Tok} {name : String} {txt : List Char}
    {d0 : Option String} (hf : File l P ts) (ht : Text ts txt) (hn : In name d0) (hd : ds d0) (he : Expands w ds l false P Q) (hQ : Fine rl Q)
    {n d : Nat} {r : Reading} (hr : load w n d false name txt = .done r) {strat : Bool} {fuel sn nr : Nat} {fcs : List FCl}
    (hc : Clausifies exVar strat fuel sn nr (itemsOf r.out) fcs) (wd : Const → Int) (hh m : Term → Nat) (input : List (List ALit))
    (hi : ∀ cl ∈ input, ∃ fc, Props.Pb.Given.Clauses fcs (clausesOf r.out) fc ∧ ∃ ls, buildCl exVar fc = some ls ∧ NewCl ls cl) (s : PState)
    (h : Run ⟨some, wd, hh, m⟩ ShortActive input s) (hs : s.refuted = true) : Consequence Q := by
  intro D S hS hax
  rw [(load_is hf ht hn hd he hQ hr).2.1] at hc hi
  exact consequence_core hQ hc wd hh m input hi s h hs S hS hax

/-- **C68, the answer is right.** The search for the clauses of a problem in several files ends.  If it ends without a proof and nothing was thrown away, no conjecture
follows; if it ends with a proof, one does. -/
theorem C68_search_settles_the_problem {rl : String → SRole} {ds : Option String → Prop} {l : Bool} {P Q : List Stmt} {ts : List Gkc.Ps.Tok} {name : String} {txt : List Char}
    {d0 : Option String} (hf : File l P ts) (ht : Text ts txt) (hn : In name d0) (hd : ds d0) (he : Expands w ds l false P Q) (hQ : Fine rl Q)
    {qd : String → Bool} (hq : Quotes qd Q) {n d : Nat} {r : Reading} (hr : load w n d false name txt = .done r) {strat : Bool} {fuel sn nr : Nat} {fcs : List FCl}
    (hc : clausifyAll exVar strat fuel sn nr (itemsOf r.out) = some fcs) {lss : List (List Gkc.Lit)}
    (hb : Props.Pb.Built fcs (clausesOf r.out) lss) (hin : PlainProblem lss) {o : Opt} (ho : Fitting (Mentioned lss) o) {k : Nat} {s : LState} :
    (Loop.run o k (Loop.start o lss) = .finished s → s.lost = false → ¬ Consequence Q) ∧
    (Loop.run o k (Loop.start o lss) = .next s → s.st.refuted = true → Consequence Q) := by
  rw [(load_is hf ht hn hd he hQ hr).2.1] at hc hb
  exact settles_core hQ hq hc hb hin ho

/-- **C68, what follows is proved.** If a conjecture follows from a problem in several files, then a search that picks the oldest clause again and again, and neither fails for want of
memory nor throws a clause away, finds a proof. -/
theorem C68_proof_is_found {rl : String → SRole} {ds : Option String → Prop} {l : Bool} {P Q : List Stmt} {ts : List Gkc.Ps.Tok} {name : String} {txt : List Char}
    {d0 : Option String} (hf : File l P ts) (ht : Text ts txt) (hn : In name d0) (hd : ds d0) (he : Expands w ds l false P Q) (hQ : Fine rl Q)
    {qd : String → Bool} (hq : Quotes qd Q) {n d : Nat} {r : Reading} (hr : load w n d false name txt = .done r) {strat : Bool} {fuel sn nr : Nat} {fcs : List FCl}
    (hc : clausifyAll exVar strat fuel sn nr (itemsOf r.out) = some fcs) {lss : List (List Gkc.Lit)}
    (hb : Props.Pb.Built fcs (clausesOf r.out) lss) (hin : PlainProblem lss) (hcons : Consequence Q)
    {o : Nat → Opt} (ho : ∀ t, Fitting (Mentioned lss) (o t)) (hsel : ∀ t, (o t).sel = (o 0).sel) (hl : Lossless o lss)
    (hp : ∀ t, ∃ t', t ≤ t' ∧ ∀ q, (o t').pick q = 0) : ∃ t s, rounds o lss t = .next s ∧ s.st.refuted = true := by
  rw [(load_is hf ht hn hd he hQ hr).2.1] at hc hb
  exact found_core hQ hq hc hb hin hcons ho hsel hl hp

/-- **C69.** The word after `SZS status` in the answer with a proof is right for a problem in one file, if there is a conjecture or no `fof` statement.

Partial: as C68; see the negative theorems below for the other problems. -/
theorem C69_status_partial {rl : String → SRole} {l : Bool} {P : List Stmt} {ts : List Gkc.Ps.Tok} {name : String} {txt : List Char} (hf : File l P ts) (ht : Text ts txt)
    (hP : Fine rl P) (hg : (∃ s ∈ P, Goal s) ∨ ∀ s ∈ P, ¬ IsFof s)
    {n d : Nat} {r : Reading} (hr : load w n d false name txt = .done r) {strat : Bool} {fuel sn nr : Nat} {fcs : List FCl}
    (hc : Clausifies exVar strat fuel sn nr (itemsOf r.out) fcs) (wd : Const → Int) (hh m : Term → Nat) (input : List (List ALit))
    (hi : ∀ cl ∈ input, ∃ fc, Props.Pb.Given.Clauses fcs (clausesOf r.out) fc ∧ ∃ ls, buildCl exVar fc = some ls ∧ NewCl ls cl) (s : PState)
    (h : Run ⟨some, wd, hh, m⟩ ShortActive input s) (hs : s.refuted = true) : Says P (status r) := by
  obtain ⟨h2, ho⟩ := load_plain hf ht hP hr
  have hcons : Consequence P := by
    intro D S hS hax
    rw [ho] at hc hi
    exact consequence_core hP hc wd hh m input hi s h hs S hS hax
  rcases hg with ⟨x, hx, hg⟩ | hg
  · obtain ⟨q, nm, hh⟩ := hg
    exact .inl ⟨by rw [status, if_pos (h2.2 ⟨x, hx, q, nm, _, hh⟩)], ⟨x, hx, q, nm, hh⟩, hcons⟩
  · have : ¬ r.hasFof = true := fun hh => by
      obtain ⟨x, hx, hf⟩ := h2.1 hh
      exact hg x hx hf
    refine .inr ⟨by rw [status, if_neg this], fun x hx ⟨q, nm, hh⟩ => hg x hx ⟨q, nm, _, hh⟩, hcons⟩

/-- **C69, negative.** A problem with `fof` statements and without a conjecture gets the wrong word: `Theorem`. -/
theorem C69_no_conjecture {rl : String → SRole} {l : Bool} {P : List Stmt} {ts : List Gkc.Ps.Tok} {name : String} {txt : List Char} (hf : File l P ts) (ht : Text ts txt)
    (hP : Fine rl P) (h1 : ∃ s ∈ P, IsFof s) (h2 : ∀ s ∈ P, ¬ Goal s) {n d : Nat} {r : Reading} (hr : load w n d false name txt = .done r) :
    status r = "Theorem" ∧ ¬ Says P (status r) := by
  have e : status r = "Theorem" := by rw [status, if_pos ((load_plain hf ht hP hr).1.2 h1)]
  refine ⟨e, ?_⟩
  rw [e]
  rintro (⟨_, ⟨s, hs, hg⟩, _⟩ | ⟨h, _⟩)
  · exact h2 s hs hg
  · exact absurd h (by decide)

/-- **C69, clauses only.** For a problem in any number of files without `fof` statements the word is right. -/
theorem C69_clauses {rl : String → SRole} {ds : Option String → Prop} {l : Bool} {P Q : List Stmt} {ts : List Gkc.Ps.Tok} {name : String} {txt : List Char}
    {d0 : Option String} (hf : File l P ts) (ht : Text ts txt) (hn : In name d0) (hd : ds d0) (he : Expands w ds l false P Q) (hQ : Fine rl Q) (hg : ∀ s ∈ Q, ¬ IsFof s)
    {n d : Nat} {r : Reading} (hr : load w n d false name txt = .done r) {strat : Bool} {fuel sn nr : Nat} {fcs : List FCl}
    (hc : Clausifies exVar strat fuel sn nr (itemsOf r.out) fcs) (wd : Const → Int) (hh m : Term → Nat) (input : List (List ALit))
    (hi : ∀ cl ∈ input, ∃ fc, Props.Pb.Given.Clauses fcs (clausesOf r.out) fc ∧ ∃ ls, buildCl exVar fc = some ls ∧ NewCl ls cl) (s : PState)
    (h : Run ⟨some, wd, hh, m⟩ ShortActive input s) (hs : s.refuted = true) : Says Q (status r) := by
  have : ¬ r.hasFof = true := fun e => by
    obtain ⟨x, hx, hf⟩ := (load_is hf ht hn hd he hQ hr).2.2 e
    exact hg x hx hf
  exact .inr ⟨by rw [status, if_neg this], fun x hx ⟨q, nm, hh⟩ => hg x hx ⟨q, nm, _, hh⟩,
    C68_proof_means_consequence_partial hf ht hn hd he hQ hr hc wd hh m input hi s h hs⟩

/-! ### Cases -/

/-- a reading that is done -/
def chk (r : Imp) (p : Reading → Bool) : Bool := match r with
  | .done s => p s
  | _ => false

theorem chk_done {r : Imp} {p : Reading → Bool} (h : chk r p = true) : ∃ s, r = .done s ∧ p s = true := by
  cases r with
  | done s => exact ⟨s, rfl, h⟩
  | _ => cases h

open Gkc.Ps (Tok bytes)
open Gkc.Ps.Spec

/-- a name in quotes -/
theorem text_quoted (c : Char) (cs : List Char) {r : List Char} {ts : List Tok} (h : ∀ x ∈ c :: cs, x.toNat ∈ List.range' 97 26) (hl : bytes (c :: cs) < 1024) (hr : Text ts r) :
    Text (⟨12, String.ofList (c :: cs)⟩ :: ts) ('\'' :: (c :: cs ++ '\'' :: r)) := by
  have no : ∀ x : Char, x.toNat ∉ List.range' 97 26 → x ∉ c :: cs := fun x hx hm => hx (h x hm)
  have e : (c :: cs).flatMap (escaped '\'') = c :: cs := by
    have : ∀ xs : List Char, '\'' ∉ xs → xs.flatMap (escaped '\'') = xs := by
      intro xs hx
      induction xs with
      | nil => rfl
      | cons x xs ih =>
        simp only [List.mem_cons, not_or] at hx
        rw [List.flatMap_cons, ih hx.2, escaped, if_neg fun e => hx.1 e.symm]
        rfl
    exact this _ (no _ (by decide))
  have := Text.cons .nil (Shown.quoted (cs := c :: cs) (by simp) (no _ (by decide)) (no _ (by decide)) hl) (fun _ _ h => h) hr
  rw [e] at this
  simpa using this

/-- a problem in two files: the conjecture, and a rule and a fact in the file `ax` -/
def inText : List Char := "fof(c,conjecture,q(a)).\ninclude('ax').".toList

/-- the other file -/
def axText : List Char := "cnf(b,axiom,~p(X)|q(X)).\nfof(a,axiom,p(a)).".toList

/-- the files -/
def inWorld : World := ⟨fun f => if f = "ax" then some axText else none, none⟩

/-- what the first file says -/
def inProblem : List Stmt := [⟨some ("fof", false, "c", "conjecture"), .atom false "q" [.name false "a"]⟩, inc "ax"]

theorem in_file : ∃ ts, File false inProblem ts ∧ Text ts inText := by
  refine ⟨_, .cons (.item "fof" false "c" "conjecture" (.unit (.atom false "q" [.name false "a"] (by simp) (by simp [okL, ok])))) (by decide) <|
    .cons (.bare (.unit (.atom false "include" [.name true "ax"] (by simp) (by simp [okL, ok])))) (by decide) .nil, ?_⟩
  exact text_eq (
    text_word 'f' ['o', 'f'] '(' (by decide) (by decide) <| text_sign (t := lpar) '(' (by decide) <|
    text_word 'c' [] ',' (by decide) (by decide) <| text_sign (t := comma) ',' (by decide) <|
    text_word 'c' ['o', 'n', 'j', 'e', 'c', 't', 'u', 'r', 'e'] ',' (by decide) (by decide) <| text_sign (t := comma) ',' (by decide) <|
    text_word 'q' [] '(' (by decide) (by decide) <| text_sign (t := lpar) '(' (by decide) <|
    text_word 'a' [] ')' (by decide) (by decide) <| text_sign (t := rpar) ')' (by decide) <|
    text_sign (t := rpar) ')' (by decide) <| text_sign (t := dot) '.' (by decide) <| text_blank '\n' (by simp) <|
    text_word 'i' ['n', 'c', 'l', 'u', 'd', 'e'] '(' (by decide) (by decide) <| text_sign (t := lpar) '(' (by decide) <|
    text_quoted 'a' ['x'] (by decide) (by decide) <| text_sign (t := rpar) ')' (by decide) <|
    text_sign (t := dot) '.' (by decide) <| .nil .nil) (by decide +kernel) (by decide +kernel)

theorem ax_file : ∃ ts, File false exProblem.tail ts ∧ Text ts axText := by
  refine ⟨_, .cons (.item "cnf" false "b" "axiom" (.chain (.two .or (.neg false (.atom false "p" [.var "X"] (by simp) (by simp [okL, ok]))) (.atom false "q" [.var "X"] (by simp) (by simp [okL, ok])))))
      (by decide) <|
    .cons (.item "fof" false "a" "axiom" (.unit (.atom false "p" [.name false "a"] (by simp) (by simp [okL, ok])))) (by decide) .nil, ?_⟩
  exact text_eq (
    text_word 'c' ['n', 'f'] '(' (by decide) (by decide) <| text_sign (t := lpar) '(' (by decide) <|
    text_word 'b' [] ',' (by decide) (by decide) <| text_sign (t := comma) ',' (by decide) <|
    text_word 'a' ['x', 'i', 'o', 'm'] ',' (by decide) (by decide) <| text_sign (t := comma) ',' (by decide) <|
    text_sign' (t := ⟨32, ""⟩) (no := ['&', '|']) '~' (by decide) (by intro c hc; cases hc; decide) <|
    text_word 'p' [] '(' (by decide) (by decide) <| text_sign (t := lpar) '(' (by decide) <|
    text_word 'X' [] ')' (by decide) (by decide) <| text_sign (t := rpar) ')' (by decide) <|
    text_sign (t := ⟨28, ""⟩) '|' (by decide) <|
    text_word 'q' [] '(' (by decide) (by decide) <| text_sign (t := lpar) '(' (by decide) <|
    text_word 'X' [] ')' (by decide) (by decide) <| text_sign (t := rpar) ')' (by decide) <|
    text_sign (t := rpar) ')' (by decide) <| text_sign (t := dot) '.' (by decide) <| text_blank '\n' (by simp) <|
    text_word 'f' ['o', 'f'] '(' (by decide) (by decide) <| text_sign (t := lpar) '(' (by decide) <|
    text_word 'a' [] ',' (by decide) (by decide) <| text_sign (t := comma) ',' (by decide) <|
    text_word 'a' ['x', 'i', 'o', 'm'] ',' (by decide) (by decide) <| text_sign (t := comma) ',' (by decide) <|
    text_word 'p' [] '(' (by decide) (by decide) <| text_sign (t := lpar) '(' (by decide) <|
    text_word 'a' [] ')' (by decide) (by decide) <| text_sign (t := rpar) ')' (by decide) <|
    text_sign (t := rpar) ')' (by decide) <| text_sign (t := dot) '.' (by decide) <| .nil .nil) (by decide +kernel) (by decide +kernel)

theorem in_expands : Expands inWorld (· = none) false false inProblem exProblem := by
  obtain ⟨ts, hf, ht⟩ := ax_file
  refine .stmt (by simp) (.incl (s := "ax") (f := "ax") (d := none) (R := exProblem.tail) (Q := []) (by decide) ?_ ⟨"ax", by decide, rfl⟩ rfl ?_ hf ht ?_ .nil)
  · rintro _ rfl
    exact .inl ⟨rfl, by decide⟩
  · rfl
  · exact .stmt (fun _ => rfl) (.stmt (fun _ => rfl) .nil)

theorem in_name : In "p" none := ⟨"p", by decide, rfl⟩

theorem in_quotes : Quotes (fun _ => false) exProblem := ex_quotes

/-- the two files together are the problem of C67, and the conjecture follows -/
theorem in_load : ∃ n d r, load inWorld n d false "p" inText = .done r ∧ r.out = (exProblem.map givenOf).reverse := by
  obtain ⟨ts, hf, ht⟩ := in_file
  obtain ⟨N, hN⟩ := load_ok (ds := (· = none)) hf ht in_name rfl in_expands ex_fine
  obtain ⟨r, e, _, h, _⟩ := hN N (Nat.le_refl _) N (Nat.le_refl _)
  exact ⟨N, N, r, e, h⟩

/-- the hypotheses of the theorems on proofs are met -/
example : Consequence exProblem := by
  obtain ⟨ts, hf, ht⟩ := in_file
  obtain ⟨n, d, r, e, h⟩ := in_load
  obtain ⟨s, hr, hs⟩ := exRun
  exact C68_proof_means_consequence_partial (ds := (· = none)) hf ht in_name rfl in_expands ex_fine e
    (by rw [h, ← given_map ex_fine, ex_given.1]; exact clausifyAll_rel ex_all) _ _ _ exInput (by rw [h, ← given_map ex_fine, ex_given.2]; exact ex_built) s hr hs

/-- and of those on the search -/
example : Consequence exProblem := by
  obtain ⟨ts, hf, ht⟩ := in_file
  obtain ⟨n, d, r, e, h⟩ := in_load
  obtain ⟨s, hr, hs⟩ := Cp.isProof_iff (r := Loop.run (Cp.opts 100) 20 (Loop.start (Cp.opts 100) exLs)) (by decide +kernel)
  exact (C68_search_settles_the_problem (ds := (· = none)) hf ht in_name rfl in_expands ex_fine in_quotes e
    (by rw [h, ← given_map ex_fine, ex_given.1]; exact ex_all) (by rw [h, ← given_map ex_fine, ex_given.2]; exact ex_lss) ex_plain (Cp.opts_fit (by omega))).2 hr hs

/-- the word for the problem in one file is right -/
example : ∃ n d r, load inWorld n d false "p" exText = .done r ∧ Says exProblem (status r) := by
  obtain ⟨ts, hf, ht⟩ := ex_file
  obtain ⟨N2, hN2⟩ := load_file (w := inWorld) hf ht
  obtain ⟨r, e, _⟩ := each_plain (w := inWorld) (rec := load inWorld N2 0) ex_fine (st := ⟨"p", false, false, [], []⟩) rfl
  have e := (hN2 N2 (Nat.le_refl _) 0 false "p").trans e
  obtain ⟨s, hr, hs⟩ := exRun
  have h := (load_plain hf ht ex_fine e).2
  exact ⟨_, _, r, e, C69_status_partial hf ht ex_fine (.inl ⟨_, .head _, _, _, rfl⟩) e
    (by rw [h, ← given_map ex_fine, ex_given.1]; exact clausifyAll_rel ex_all) _ _ _ exInput (by rw [h, ← given_map ex_fine, ex_given.2]; exact ex_built) s hr hs⟩

/-- a problem with clauses only -/
def clText : List Char := "cnf(c,plain,~q(a)).\ncnf(b,axiom,~p(X)|q(X)).\ncnf(a,axiom,p(a)).".toList

/-- what it says -/
def clProblem : List Stmt :=
  [⟨some ("cnf", false, "c", "plain"), .neg (.atom false "q" [.name false "a"])⟩,
   ⟨some ("cnf", false, "b", "axiom"), .bin .or (.neg (.atom false "p" [.var "X"])) (.atom false "q" [.var "X"])⟩,
   ⟨some ("cnf", false, "a", "axiom"), .atom false "p" [.name false "a"]⟩]

theorem cl_file : ∃ ts, File false clProblem ts ∧ Text ts clText := by
  refine ⟨_, .cons (.item "cnf" false "c" "plain" (.unit (.neg false (.atom false "q" [.name false "a"] (by simp) (by simp [okL, ok]))))) (by decide) <|
    .cons (.item "cnf" false "b" "axiom" (.chain (.two .or (.neg false (.atom false "p" [.var "X"] (by simp) (by simp [okL, ok]))) (.atom false "q" [.var "X"] (by simp) (by simp [okL, ok])))))
      (by decide) <|
    .cons (.item "cnf" false "a" "axiom" (.unit (.atom false "p" [.name false "a"] (by simp) (by simp [okL, ok])))) (by decide) .nil, ?_⟩
  exact text_eq (
    text_word 'c' ['n', 'f'] '(' (by decide) (by decide) <| text_sign (t := lpar) '(' (by decide) <|
    text_word 'c' [] ',' (by decide) (by decide) <| text_sign (t := comma) ',' (by decide) <|
    text_word 'p' ['l', 'a', 'i', 'n'] ',' (by decide) (by decide) <| text_sign (t := comma) ',' (by decide) <|
    text_sign' (t := ⟨32, ""⟩) (no := ['&', '|']) '~' (by decide) (by intro c hc; cases hc; decide) <|
    text_word 'q' [] '(' (by decide) (by decide) <| text_sign (t := lpar) '(' (by decide) <|
    text_word 'a' [] ')' (by decide) (by decide) <| text_sign (t := rpar) ')' (by decide) <|
    text_sign (t := rpar) ')' (by decide) <| text_sign (t := dot) '.' (by decide) <| text_blank '\n' (by simp) <|
    text_word 'c' ['n', 'f'] '(' (by decide) (by decide) <| text_sign (t := lpar) '(' (by decide) <|
    text_word 'b' [] ',' (by decide) (by decide) <| text_sign (t := comma) ',' (by decide) <|
    text_word 'a' ['x', 'i', 'o', 'm'] ',' (by decide) (by decide) <| text_sign (t := comma) ',' (by decide) <|
    text_sign' (t := ⟨32, ""⟩) (no := ['&', '|']) '~' (by decide) (by intro c hc; cases hc; decide) <|
    text_word 'p' [] '(' (by decide) (by decide) <| text_sign (t := lpar) '(' (by decide) <|
    text_word 'X' [] ')' (by decide) (by decide) <| text_sign (t := rpar) ')' (by decide) <|
    text_sign (t := ⟨28, ""⟩) '|' (by decide) <|
    text_word 'q' [] '(' (by decide) (by decide) <| text_sign (t := lpar) '(' (by decide) <|
    text_word 'X' [] ')' (by decide) (by decide) <| text_sign (t := rpar) ')' (by decide) <|
    text_sign (t := rpar) ')' (by decide) <| text_sign (t := dot) '.' (by decide) <| text_blank '\n' (by simp) <|
    text_word 'c' ['n', 'f'] '(' (by decide) (by decide) <| text_sign (t := lpar) '(' (by decide) <|
    text_word 'a' [] ',' (by decide) (by decide) <| text_sign (t := comma) ',' (by decide) <|
    text_word 'a' ['x', 'i', 'o', 'm'] ',' (by decide) (by decide) <| text_sign (t := comma) ',' (by decide) <|
    text_word 'p' [] '(' (by decide) (by decide) <| text_sign (t := lpar) '(' (by decide) <|
    text_word 'a' [] ')' (by decide) (by decide) <| text_sign (t := rpar) ')' (by decide) <|
    text_sign (t := rpar) ')' (by decide) <| text_sign (t := dot) '.' (by decide) <| .nil .nil) (by decide +kernel) (by decide +kernel)

theorem cl_fine : Fine exRl clProblem where
  sig := exRl_sig
  ok s hs := by
    simp only [clProblem, List.mem_cons, List.not_mem_nil, or_false] at hs
    rcases hs with rfl | rfl | rfl
    · exact .inr ⟨rfl, by decide, .natom _ _ _⟩
    · exact .inr ⟨rfl, by decide, .or (.natom _ _ _) (.atom _ _ _)⟩
    · exact .inr ⟨rfl, by decide, .atom _ _ _⟩
  keeps s hs u hu := by
    simp only [clProblem, List.mem_cons, List.not_mem_nil, or_false] at hs
    rcases hs with rfl | rfl | rfl
    · exact ex_fine.keeps _ (.head _) u hu
    · exact ex_fine.keeps _ (.tail _ (.head _)) u hu
    · exact ex_fine.keeps _ (.tail _ (.tail _ (.head _))) u hu
  apart s hs x hx := by
    simp only [clProblem, List.mem_cons, List.not_mem_nil, or_false] at hs
    rcases hs with rfl | rfl | rfl <;> simp [uses, usesT, usesTL] at hx ⊢

theorem cl_built : ∀ cl ∈ exInput, ∃ fc, Props.Pb.Given.Clauses [] (clausesOf (clProblem.map givenOf).reverse) fc ∧ ∃ ls, buildCl exVar fc = some ls ∧ NewCl ls cl := by
  have l1 : ∀ t, Clausify.flat (.at t) = some [.lits [.at t]] := fun t => by simp [Clausify.flat, Clausify.flatOr]
  have l2 : ∀ t, Clausify.flat (.neg (.at t)) = some [.lits [.neg (.at t)]] := fun t => by simp [Clausify.flat, Clausify.flatOr]
  have e : clausesOf (clProblem.map givenOf).reverse = [.at (exP "p" "a"), exRaw, .neg (.at (exP "q" "a"))] := rfl
  rw [e]
  intro cl h
  simp only [exInput, List.mem_cons, List.not_mem_nil, or_false] at h
  rcases h with rfl | rfl | rfl
  · exact ⟨_, .inr ⟨_, .head _, _, l1 _, .head _⟩, _, by rfl, by rfl, by simp [Sep]⟩
  · exact ⟨_, .inr ⟨_, .tail _ (.head _), _, ex_flat, .head _⟩, _, by rfl, by rfl, by simp [Sep]⟩
  · exact ⟨_, .inr ⟨_, .tail _ (.tail _ (.head _)), _, l2 _, .head _⟩, _, by rfl, by rfl, by simp [Sep]⟩

/-- the word for the problem with clauses only is right -/
example : ∃ n d r, load inWorld n d false "p" clText = .done r ∧ status r = "Unsatisfiable" ∧ Says clProblem (status r) := by
  obtain ⟨ts, hf, ht⟩ := cl_file
  have he : Expands inWorld (· = none) false false clProblem clProblem := .stmt (by simp) (.stmt (by simp) (.stmt (by simp) .nil))
  obtain ⟨N, hN⟩ := load_ok (ds := (· = none)) hf ht in_name rfl he cl_fine
  obtain ⟨r, e, _, h, _⟩ := hN N (Nat.le_refl _) N (Nat.le_refl _)
  obtain ⟨s, hr, hs⟩ := exRun
  have no : ∀ s ∈ clProblem, ¬ IsFof s := by
    rintro s hs ⟨q, n, r, h⟩
    simp only [clProblem, List.mem_cons, List.not_mem_nil, or_false] at hs
    rcases hs with rfl | rfl | rfl <;> simp at h
  have key := C69_clauses (ds := (· = none)) hf ht in_name rfl he cl_fine no e (strat := true) (fuel := 9) (sn := 0) (nr := 0) (fcs := [])
    (by rw [h]; exact clausifyAll_rel rfl) _ _ _ exInput (by rw [h]; exact cl_built) s hr hs
  refine ⟨N, N, r, e, ?_, key⟩
  rcases key with ⟨_, ⟨x, hx, q, nm, hh⟩, _⟩ | h
  · exact absurd ⟨q, nm, _, hh⟩ (no x hx)
  · exact h.1

/-- a file with a fact: the hypotheses of the negative theorem are met -/
example : ∃ n d r P, load inWorld n d false "p" "fof(a,axiom,p(a)).".toList = .done r ∧ P.length = 1 ∧ status r = "Theorem" ∧ ¬ Says P (status r) := by
  have hf : File false [(⟨some ("fof", false, "a", "axiom"), .atom false "p" [.name false "a"]⟩ : Stmt)] _ :=
    .cons (.item "fof" false "a" "axiom" (.unit (.atom false "p" [.name false "a"] (by simp) (by simp [okL, ok])))) (by decide) .nil
  have ht : Text _ "fof(a,axiom,p(a)).".toList := text_eq (
    text_word 'f' ['o', 'f'] '(' (by decide) (by decide) <| text_sign (t := lpar) '(' (by decide) <|
    text_word 'a' [] ',' (by decide) (by decide) <| text_sign (t := comma) ',' (by decide) <|
    text_word 'a' ['x', 'i', 'o', 'm'] ',' (by decide) (by decide) <| text_sign (t := comma) ',' (by decide) <|
    text_word 'p' [] '(' (by decide) (by decide) <| text_sign (t := lpar) '(' (by decide) <|
    text_word 'a' [] ')' (by decide) (by decide) <| text_sign (t := rpar) ')' (by decide) <|
    text_sign (t := rpar) ')' (by decide) <| text_sign (t := dot) '.' (by decide) <| .nil .nil) (by decide +kernel) rfl
  have hP := Fine.sub ex_fine (P := [⟨some ("fof", false, "a", "axiom"), .atom false "p" [.name false "a"]⟩]) fun s hs => by
    rw [List.mem_singleton.1 hs]
    exact .tail _ (.tail _ (.head _))
  obtain ⟨N, hN⟩ := load_ok (w := inWorld) (ds := (· = none)) hf ht in_name rfl (.stmt (by simp) .nil) hP
  obtain ⟨r, e, _⟩ := hN N (Nat.le_refl _) N (Nat.le_refl _)
  exact ⟨N, N, r, _, e, rfl, C69_no_conjecture hf ht hP ⟨_, .head _, _, _, _, rfl⟩ (by
    rintro s hs ⟨q, n, h⟩
    rw [List.mem_singleton.1 hs] at h
    simp at h) e⟩

/-- the hypotheses of the theorem on finding proofs are met -/
example : ∃ t s, rounds Cp.turns exLs t = .next s ∧ s.st.refuted = true := by
  obtain ⟨ts, hf, ht⟩ := in_file
  obtain ⟨n, d, r, e, h⟩ := in_load
  exact C68_proof_is_found (ds := (· = none)) hf ht in_name rfl in_expands ex_fine in_quotes e
    (by rw [h, ← given_map ex_fine, ex_given.1]; exact ex_all) (by rw [h, ← given_map ex_fine, ex_given.2]; exact ex_lss) ex_plain ex_follows
    Cp.turns_fit (fun _ => rfl) ex_lossless fun t => ⟨2 * t, by omega, fun q => by simp [Cp.turns]⟩

/-- **C68, negative.** After a file in another folder, names are looked for from there: here both files are where the names lead from the first file, but the
axiom in `x/a` is not read, and that is no error. -/
theorem C68_second_folder_is_lost :
    let w : World := ⟨fun f => if f = "x/a" then some "fof(a,axiom,p).".toList else if f = "x/b" then some "fof(b,axiom,p => q).".toList else none, none⟩
    ∃ r, load w 200 3 false "p" "include('x/a'). include('x/b'). fof(c,conjecture,q).".toList = .done r ∧ refused r = false ∧ r.out.length = 2 ∧
      r.filename = "/opt/TPTP/x/a" := by
  intro w
  obtain ⟨r, e, h⟩ := chk_done (r := load w 200 3 false "p" "include('x/a'). include('x/b'). fof(c,conjecture,q).".toList)
    (p := fun r => !refused r && r.out.length == 2 && r.filename == "/opt/TPTP/x/a") (by decide +kernel)
  simp only [Bool.and_eq_true, Bool.not_eq_true', beq_iff_eq] at h
  exact ⟨r, e, h.1.1, h.1.2, h.2⟩

/-- **C68, negative.** A file that is not there is no error. -/
theorem C68_missing_file_is_no_error : ∃ r, load ⟨fun _ => none, none⟩ 200 3 false "p" "include('ax'). fof(c,conjecture,q).".toList = .done r ∧ refused r = false ∧ r.out.length = 1 := by
  obtain ⟨r, e, h⟩ := chk_done (r := load ⟨fun _ => none, none⟩ 200 3 false "p" "include('ax'). fof(c,conjecture,q).".toList)
    (p := fun r => !refused r && r.out.length == 1) (by decide +kernel)
  simp only [Bool.and_eq_true, Bool.not_eq_true', beq_iff_eq] at h
  exact ⟨r, e, h.1, h.2⟩

/-- **C68, negative.** A problem whose statements are all in included files is read without an error, and then refused. -/
theorem C68_only_includes_refused : ∃ r, load inWorld 200 3 false "p" "include('ax').".toList = .done r ∧ r.err = false ∧ r.out.length = 2 ∧ refused r = true := by
  obtain ⟨r, e, h⟩ := chk_done (r := load inWorld 200 3 false "p" "include('ax').".toList) (p := fun r => !r.err && r.out.length == 2 && refused r) (by decide +kernel)
  simp only [Bool.and_eq_true, Bool.not_eq_true', beq_iff_eq] at h
  exact ⟨r, e, h.1.1, h.1.2, h.2⟩

/-- a syntax error in an included file is an error -/
example : ∃ r, load ⟨fun f => if f = "ax" then some "fof(a,axiom,p(1/2)).".toList else none, none⟩ 200 3 false "p" "include('ax'). fof(c,conjecture,q).".toList = .done r ∧ r.err = true :=
  chk_done (p := fun r => r.err) (by decide +kernel)

/-- **C68, negative.** A formula alone is not brought into clausal form in an included file: the implication is handed on as if it were a clause. -/
theorem C68_formula_in_included_file :
    ∃ r f, load ⟨fun f => if f = "ax" then some "p => q.".toList else none, none⟩ 200 3 false "p" "include('ax').".toList = .done r ∧ r.out = [.clause (.imp f)] := by
  obtain ⟨r, e, h⟩ := chk_done (r := load ⟨fun f => if f = "ax" then some "p => q.".toList else none, none⟩ 200 3 false "p" "include('ax').".toList)
    (p := fun r => match r.out with | [.clause (.imp _)] => true | _ => false) (by decide +kernel)
  split at h
  · rename_i f h'
    exact ⟨r, f, e, h'⟩
  · cases h

/-- **C68, negative.** A file that includes itself is read without end. -/
theorem C68_file_in_itself (w : World) (hw : w.files "p" = some "include('p').".toList) (n d : Nat) (b : Bool) : load w n d b "p" "include('p').".toList = .more := by
  induction d generalizing b with
  | zero => rfl
  | succ d ih =>
    have h100 : Gkc.Ps.parse 100 "include('p').".toList = some (.accept (some (.tree (.list [(inc "p").tree])))) := Gkc.Ps.isTree_eq (by decide +kernel)
    rw [load]
    cases e : Gkc.Ps.parse n "include('p').".toList with
    | none => rfl
    | some o =>
      have h1 := parse_le (Nat.le_max_left n 100) e
      rw [parse_le (Nat.le_max_right n 100) h100] at h1
      cases h1
      have hl : lookup w "p" "p" = "p" := lookup_eq (by decide) (.inl ⟨rfl, by rw [hw]; rfl⟩)
      have step : round (load w n d) w b (inc "p").tree ⟨"p", false, false, [], []⟩ = .more := by
        unfold round
        rw [given_inc]
        simp only [inc_tree, inclFile, hl, hw, ih]
        rfl
      simp only [each, step]
      rfl

example : ∃ w : World, w.files "p" = some "include('p').".toList := ⟨⟨fun _ => some "include('p').".toList, none⟩, rfl⟩

/-- **C69, negative.** After an included file with no `fof` statement the word for a problem with a conjecture is `Unsatisfiable`. -/
theorem C69_include_forgets : ∃ r, load ⟨fun f => if f = "ax" then some "cnf(a,axiom,q).".toList else none, none⟩ 200 3 false "p"
    "include('ax'). fof(c,conjecture,q).".toList = .done r ∧ status r = "Unsatisfiable" ∧ ∃ it ∈ itemsOf r.out, it.conj = true := by
  obtain ⟨r, e, h⟩ := chk_done (r := load ⟨fun f => if f = "ax" then some "cnf(a,axiom,q).".toList else none, none⟩ 200 3 false "p" "include('ax'). fof(c,conjecture,q).".toList)
    (p := fun r => status r == "Unsatisfiable" && (itemsOf r.out).any (·.conj)) (by decide +kernel)
  simp only [Bool.and_eq_true, beq_iff_eq, List.any_eq_true] at h
  exact ⟨r, e, h.1, h.2⟩

end Gkc.Props.Inc
