import Verif.JsLogicRun
/-
C56: formulas in the list notation of JSON-LD-LOGIC mean for the prover what the documentation says.
-/
namespace Gkc.Props.Js
open Gkc.Js
open Gkc.Js.Spec (Tm Fm Str WF WFT Symbols Reads str)
open Gkc.Clausify (Nm FT Frm uri FInt primOf renameF Variant buildA VarCfg)

/-! ### The structures are those of the language -/

/-- every structure that does not tell apart what the prover does not tell apart, and knows true and false, gives an
interpretation of the names -/
theorem exists_reads {D : Type} (S : Str D) (v : String → D) (ht : S.pr "$true" []) (hf : ¬ S.pr "$false" [])
    (hp : ∀ p q, primOf true (anon p) = primOf true (anon q) → S.pr p = S.pr q)
    (hg : ∀ f g, primOf true (renameF (anon f)) = primOf true (renameF (anon g)) → S.fn f = S.fn g) :
    ∃ (I : FInt D) (ρ : Nm → D), Symbols I ∧ Reads I ρ S v := by
  classical
  have kp : ∀ s, (fun n : Nm => if h : ∃ s, primOf true n = primOf true (anon s) then S.pr (Classical.choose h) else fun _ => False) (anon s) = S.pr s := by
    intro s
    have h : ∃ t, primOf true (anon s) = primOf true (anon t) := ⟨s, rfl⟩
    simp only [dif_pos h]
    exact (hp _ _ (Classical.choose_spec h)).symm
  have kf : ∀ s, (fun n : Nm => if h : ∃ s, primOf true (renameF n) = primOf true (renameF (anon s)) then S.fn (Classical.choose h)
      else fun _ => v "") (anon s) = S.fn s := by
    intro s
    have h : ∃ t, primOf true (renameF (anon s)) = primOf true (renameF (anon t)) := ⟨s, rfl⟩
    simp only [dif_pos h]
    exact (hg _ _ (Classical.choose_spec h)).symm
  refine ⟨⟨fun n => if h : ∃ s, primOf true (renameF n) = primOf true (renameF (anon s)) then S.fn (Classical.choose h) else fun _ => v "",
      fun n => if h : ∃ s, primOf true n = primOf true (anon s) then S.pr (Classical.choose h) else fun _ => False⟩,
    fun n => if n.ty = 13 then S.cst n.str else if n.ty = 7 then v n.str else S.num n.ty n.str, ⟨?_, ?_, ?_, ?_⟩, ⟨?_, ?_, kf, kp, ?_⟩⟩
  · intro p q _ _ e
    simp only [e]
  · intro f g _ _ e
    simp only [e]
  · have := kp "$true"
    simp only at this ⊢
    rw [this]
    exact ht
  · have := kp "$false"
    simp only at this ⊢
    rw [this]
    exact hf
  · intro s
    simp [anon]
  · intro ty t h
    have h1 : ty ≠ 13 := by omega
    have h2 : ty ≠ 7 := by omega
    simp [h1, h2]
  · intro s
    simp [uri]

/-! ### The main theorem -/

/-- assignments that agree but on some variables -/
def Off {D : Type} (vs : List String) (v v' : String → D) : Prop := ∀ s, s ∉ vs → v' s = v s

/-- what a formula should mean in a role: free variables are universal, a question is negated, and one with free
variables asks for the values of them -/
def Meaning {D : Type} (I : FInt D) (S : Str D) (v : String → D) (f : Fm) (vs : List String) : Role → Prop
  | .other => ∀ v', Off vs v v' → S.means [] v' f
  | .question => if vs = [] then ¬ S.means [] v f else ∀ v', Off vs v v' → S.means [] v' f → I.pr (uri "$ans") (vs.map v')

theorem reads_off {D : Type} {I : FInt D} {ρ : Nm → D} {S : Str D} {v : String → D} (hR : Reads I ρ S v) (vs : List String) :
    (∀ ρ', Variant (vs.map uri) ρ ρ' → ∃ v', Off vs v v' ∧ Reads I ρ' S v') ∧
    (∀ v', Off vs v v' → ∃ ρ', Variant (vs.map uri) ρ ρ' ∧ Reads I ρ' S v') := by
  constructor
  · intro ρ' hV
    refine ⟨fun s => ρ' (uri s), fun s hs => ?_, ⟨fun s => ?_, fun ty t ht => ?_, hR.fn, hR.pr, fun _ => rfl⟩⟩
    · simp only
      rw [hV _ (by simpa [uri] using hs), hR.var]
    · rw [hV _ (by simp [uri, anon]), hR.cst]
    · rw [hV _ (by simp only [uri, List.mem_map, Nm.mk.injEq, not_exists, not_and]; omega), hR.num _ _ ht]
  · intro v' hv'
    refine ⟨fun n => if n.ty = 7 then v' n.str else ρ n, fun n hn => ?_, ⟨fun s => ?_, fun ty t ht => ?_, hR.fn, hR.pr, fun s => by simp [uri]⟩⟩
    · simp only
      split
      · rename_i h7
        rw [hv', ← hR.var, ← nm7 h7]
        intro hm
        exact hn (List.mem_map.2 ⟨_, hm, (nm7 h7).symm⟩)
      · rfl
    · exact (if_neg (by simp [anon])).trans (hR.cst s)
    · have : ty ≠ 7 := by omega
      simp only [if_neg this]
      exact hR.num ty t ht

theorem readTL_vars : ∀ vs : List String, readTL (vs.map fun s => Jv.atom (uri s)) = some (vs.map fun s => .nm (uri s))
  | [] => rfl
  | v :: vs => by simp [readTL, readT, readTL_vars vs]

theorem evL_vars {D : Type} {I : FInt D} {ρ : Nm → D} {S : Str D} {v : String → D} (hR : Reads I ρ S v) : ∀ vs : List String,
    I.evL ρ (vs.map fun s => .nm (uri s)) = vs.map v
  | [] => rfl
  | u :: vs => by simp [FInt.evL, FInt.ev, evL_vars hR vs, hR.var]

/-- what is put around a formula -/
def wrap : Role → List String → Frm → Frm
  | .other, vs, f => if vs.isEmpty then f else .all (vs.map uri) f
  | .question, vs, f => if vs.isEmpty then .neg f else .all (vs.map uri) (.imp [f, .at (.app (uri "$ans") (vs.map fun s => .nm (uri s)))])

/-- what becomes of a formula -/
theorem formula_ok {U : Spec.Use → Prop} (f : Fm) (hf : WF [] f) (hu : ∀ x ∈ f.uses [], U x) :
    ∃ (g : G) (vs : List String), Done U [] f g ∧ vs.Nodup ∧ (∀ x, x ∈ vs ↔ x ∈ f.fv []) ∧ ∀ role, ∃ (j : Jv),
      (∃ n, ∀ k, n ≤ k → formula k role f.json = .ok j) ∧ readF j = some (wrap role vs g.frm) := by
  obtain ⟨g, hg⟩ := fm_ok f (sc := []) (by intro s hs; cases hs) hf hu
  obtain ⟨n, hn⟩ := hg.run
  obtain ⟨st, r, i, fr⟩ := hn ⟨[], [], [], 0⟩ ⟨rfl, fun s => by simp [inBound], List.nodup_nil⟩
  have rd := readF_jv g hg.out
  refine ⟨g, st.free.reverse, hg, (List.reverse_perm _).nodup_iff.2 i.nodup, fun x => by simp [fr], fun role => ?_⟩
  have run : ∀ k, n ≤ k → formula k role f.json = .ok (match role with
    | .question =>
      if (st.free.reverse.map fun s => Jv.atom (uri s)).isEmpty then .list [.atom (anon "not"), jvG g]
      else .list [.atom (anon "all"), .list (st.free.reverse.map fun s => Jv.atom (uri s)),
        .list [.atom (anon "imp"), jvG g, .list (.atom (uri "$ans") :: st.free.reverse.map fun s => Jv.atom (uri s))]]
    | .other => if (st.free.reverse.map fun s => Jv.atom (uri s)).isEmpty then jvG g
      else .list [.atom (anon "all"), .list (st.free.reverse.map fun s => Jv.atom (uri s)), jvG g]) := by
    intro k hk
    have r := r k hk
    simp only at r
    simp only [formula, r]
    rfl
  refine ⟨_, ⟨n, run⟩, ?_⟩
  generalize st.free.reverse = vs
  have he : (vs.map fun s => Jv.atom (uri s)).isEmpty = vs.isEmpty := by simp
  cases role with
  | other =>
    simp only [he, wrap]
    split
    · exact rd
    · simp [readF, anon, readVars_map, rd]
  | question =>
    simp only [he, wrap]
    split
    · simp [readF, anon, rd]
    · have : readF (.list (.atom (uri "$ans") :: vs.map fun s => Jv.atom (uri s))) =
          some (.at (.app (uri "$ans") (vs.map fun s => .nm (uri s)))) := by
        rw [readF.eq_def]
        simp [uri]
        exact readTL_vars vs
      simp [readF, readFL, anon, readVars_map, rd, this]

/-- what is put around a formula has the meaning for the role -/
theorem wrap_meaning {U : Spec.Use → Prop} {f : Fm} {g : G} (hg : Done U [] f g) (vs : List String) (role : Role) {D : Type} {I : FInt D} {ρ : Nm → D}
    {S : Str D} {v : String → D} (hI : Symbols I) (hR : Reads I ρ S v) : I.holds ρ (wrap role vs g.frm) ↔ Meaning I S v f vs role := by
  cases role with
  | other =>
    simp only [Meaning, wrap]
    split
    · rename_i e
      rw [hg.sem hI hR]
      have e : vs = [] := by simpa using e
      subst e
      refine ⟨fun h v' hv' => ?_, fun h => h v fun _ _ => rfl⟩
      rw [show v' = v from funext fun s => hv' s (by simp)]
      exact h
    · simp only [FInt.holds]
      constructor
      · intro h v' hv'
        obtain ⟨ρ', hV, hR'⟩ := (reads_off hR vs).2 v' hv'
        exact (hg.sem hI hR').1 (h ρ' hV)
      · intro h ρ' hV
        obtain ⟨v', hv', hR'⟩ := (reads_off hR vs).1 ρ' hV
        exact (hg.sem hI hR').2 (h v' hv')
  | question =>
    simp only [Meaning, wrap]
    by_cases e : vs = []
    · subst e
      rw [if_pos rfl]
      simp only [List.isEmpty_nil, if_true, FInt.holds, hg.sem hI hR]
    · rw [if_neg e, if_neg (by simpa using e)]
      simp only [FInt.holds, FInt.holdsImp, FInt.atom]
      constructor
      · intro h v' hv'
        obtain ⟨ρ', hV, hR'⟩ := (reads_off hR vs).2 v' hv'
        have := h ρ' hV
        rw [hg.sem hI hR', evL_vars hR'] at this
        exact this
      · intro h ρ' hV
        obtain ⟨v', hv', hR'⟩ := (reads_off hR vs).1 ρ' hV
        rw [hg.sem hI hR', evL_vars hR']
        exact h v' hv'

/-- **C56.** Every formula of the language is accepted, and what the clausifier gets means what the formula means:
in every interpretation of the symbols of the prover, in every role.  Missing, because it is false: negated predicates whose
names are no plain symbols (C56_negated_capital) and atoms without arguments (C56_proposition). -/
theorem C56_meaning_partial (f : Fm) (hf : WF [] f) (role : Role) :
    ∃ (j : Jv) (g : Frm) (vs : List String),
      (∃ n, ∀ k, n ≤ k → formula k role f.json = .ok j) ∧ readF j = some g ∧ vs.Nodup ∧ (∀ x, x ∈ vs ↔ x ∈ f.fv []) ∧
      ∀ (D : Type) (I : FInt D) (ρ : Nm → D) (S : Str D) (v : String → D), Symbols I → Reads I ρ S v →
        (I.holds ρ g ↔ Meaning I S v f vs role) := by
  obtain ⟨g, vs, hg, nd, mem, h⟩ := formula_ok (U := fun _ => True) f hf fun _ _ => trivial
  obtain ⟨j, run, rd⟩ := h role
  refine ⟨j, _, vs, run, rd, nd, mem, fun D I ρ S v hI hR => wrap_meaning hg vs role hI hR⟩

/-- a rule with a free variable and an equality, `["if", ["bird", "?:X"], ["=", "?:X", "tweety"], "then", ["-heavy", "?:X"],
["exists", ["Y"], [["f", "?:X"], "!=", "Y"]]]` -/
def sample : Fm := .ifThen [.atom "bird" [.name "?:X"], .eq "=" true (.name "?:X") (.name "tweety")]
  [.natom '-' "heavy" [.name "?:X"], .quant "exists" ["Y"] (.eq "!=" false (.app "f" [.name "?:X"]) (.name "Y"))]

example : WF [] sample := by
  simp only [sample, WF, WFT, Spec.WFL, Spec.WFTL, Spec.Pred, Spec.Fun, Spec.Name, Spec.Plain, ne_eq, reduceCtorEq, not_false_eq_true, true_and]
  refine ⟨⟨?_, ?_, trivial⟩, ?_, ?_, trivial⟩ <;> decide +kernel

example : sample.fv [] = ["?:X", "?:X", "?:X", "?:X"] := by decide +kernel

/-- an interpretation in which the hypotheses on interpretations hold -/
example : ∃ (I : FInt Bool) (ρ : Nm → Bool) (S : Str Bool) (v : String → Bool), Symbols I ∧ Reads I ρ S v ∧ S.pr "bird" [true] ∧ ¬ S.pr "bird" [false] := by
  let S : Str Bool := ⟨fun _ => true, fun _ _ => true, fun _ _ => true, fun p as =>
    primOf true (anon p) = primOf true (anon "$true") ∨ primOf true (anon p) = primOf true (anon "bird") ∧ as = [true]⟩
  obtain ⟨I, ρ, a, b⟩ := exists_reads S (fun _ => true) (.inl rfl) (by
      rintro (h | ⟨_, h⟩)
      · exact absurd h (by decide +kernel)
      · cases h) (fun p q e => by simp only [S, e]) (fun _ _ _ => rfl)
  refine ⟨I, ρ, S, _, a, b, .inr ⟨rfl, rfl⟩, ?_⟩
  rintro (h | ⟨_, h⟩)
  · exact absurd h (by decide +kernel)
  · cases h

/-! ### What is not in the language, or is there and goes wrong -/

/-- a conjunction of nothing is false and a disjunction of nothing is true -/
theorem C56_empty : formula 20 .other (.list [str "and"]) = .ok (.atom (anon "$false")) ∧
    formula 20 .other (.list [str "or"]) = .ok (.atom (anon "$true")) := ⟨rfl, rfl⟩

/-- after an equality the rest of the list is dropped -/
theorem C56_rest_dropped (rest : List Jv) (h : ∀ x ∈ rest, isConn x = none) (k : Nat) :
    formula (k + 20) .other (.list (str "a" :: str "=" :: str "b" :: rest)) =
      .ok (.list [.atom (uri "="), .atom (anon "a"), .atom (anon "b")]) := by
  have lg : ∀ l, (∀ x ∈ l, isConn x = none) → logconn none l = .ok none := by
    intro l
    induction l with
    | nil => intro _; rfl
    | cons x xs ih =>
      intro h
      simp only [logconn, h x (by simp)]
      exact ih fun y hy => h y (List.mem_cons_of_mem _ hy)
  have e : logconn none (str "a" :: str "=" :: str "b" :: rest) = .ok none := lg _ fun x hx => by
    simp only [List.mem_cons] at hx
    rcases hx with rfl | rfl | rfl | hx
    · rfl
    · rfl
    · rfl
    · exact h x hx
  simp only [formula, aux, e]
  rfl

/-- so is a conjunction: `["a", "=", "b", "&", "q"]` is `a = b` -/
theorem C56_conjunct_dropped : formula 20 .other (.list [str "a", str "=", str "b", str "&", str "q"]) =
    .ok (.list [.atom (uri "="), .atom (anon "a"), .atom (anon "b")]) := rfl

/-- A predicate with a capital is another symbol when it is negated: `["Bird", "t"]` and `["-Bird", "t"]` are true
together in some interpretation of the symbols of the prover. -/
theorem C56_negated_capital : ∃ g g', (formula 20 .other (.list [str "Bird", str "t"])).toOption.bind readF = some g ∧
    (formula 20 .other (.list [str "-Bird", str "t"])).toOption.bind readF = some g' ∧
    ∃ (I : FInt Unit) (ρ : Nm → Unit), Symbols I ∧ I.holds ρ g ∧ I.holds ρ g' := by
  refine ⟨.at (.app (anon "Bird") [.nm (anon "t")]), .neg (.at (.app (uri "Bird") [.nm (anon "t")])), rfl, rfl,
    ⟨fun _ _ => (), fun n _ => primOf true n = primOf true (anon "$true") ∨ primOf true n = primOf true (anon "Bird")⟩, fun _ => (),
    ⟨fun p q _ _ e => ?_, fun _ _ _ _ _ => rfl, .inl rfl, ?_⟩, .inr rfl, ?_⟩
  · simp only [e]
  · exact fun h => absurd h (by decide +kernel)
  · exact fun h => absurd (show primOf true (uri "Bird") = primOf true (anon "$true") ∨ primOf true (uri "Bird") = primOf true (anon "Bird") from h)
      (by decide +kernel)

/-- The proposition `"p"` and the atom `["p"]` become different atoms. -/
theorem C56_proposition (c : VarCfg) (hc : Gkc.Clausify.isVar c (anon "p") = false) :
    ∃ t t', (formula 20 .other (str "p")).toOption.bind readF = some (.at t) ∧
    (formula 20 .other (.list [str "p"])).toOption.bind readF = some (.at t') ∧
    buildA c [] t = some (.app (.sym "$pr") [.const (.sym "p")], []) ∧ buildA c [] t' = some (.app (.sym "p") [], []) := by
  refine ⟨.nm (anon "p"), .app (anon "p") [], rfl, rfl, ?_, ?_⟩
  · simp only [buildA, Gkc.Clausify.buildT, hc]
    rfl
  · rfl

/-- `"~p"` is rejected as a double negation, though `"-p"` is accepted -/
theorem C56_tilde : (∀ k, formula (k + 20) .other (str "~p") = .error .err) ∧
    formula 20 .other (str "-p") = .ok (.list [.atom (anon "not"), .atom (anon "p")]) := ⟨fun _ => rfl, rfl⟩

/-- `["--p", "a"]` denies a predicate with the name `-p` -/
theorem C56_two_signs : formula 20 .other (.list [str "--p", str "a"]) =
    .ok (.list [.atom (anon "not"), .list [.atom (uri "-p"), .atom (anon "a")]]) := rfl

/-- The variable for a null in an equality is not quantified, and the one in a negated atom is quantified outside. -/
theorem C56_null : formula 20 .other (.list [.null, str "=", str "a"]) =
      .ok (.list [.atom (uri "="), .atom (uri "Nvar1"), .atom (anon "a")]) ∧
    formula 20 .other (.list [str "-p", .null]) =
      .ok (.list [.atom (anon "exists"), .list [.atom (uri "Nvar1")], .list [.atom (anon "not"), .list [.atom (uri "p"), .atom (uri "Nvar1")]]]) :=
  ⟨rfl, rfl⟩

/-- An empty string at the head of a list, or after it, makes strcmp read NULL. -/
theorem C56_empty_string (k : Nat) : formula (k + 20) .other (.list [str "", str "a"]) = .error .ub ∧
    formula (k + 20) .other (.list [str "p", str ""]) = .error .ub := ⟨rfl, rfl⟩

/-- `imp` and `all` as names of predicates are connectives afterwards; the proposition `imp` disappears before "=>" -/
theorem C56_names : (formula 20 .other (.list [str "imp", str "a", str "b"])).toOption.bind readF = some (.imp [.at (.nm (anon "a")), .at (.nm (anon "b"))]) ∧
    formula 20 .other (.list [str "imp", str "=>", str "q"]) = .ok (.atom (anon "q")) := ⟨rfl, rfl⟩

/-- An implication with three members is nested to the left, and so is a denied conjunction. -/
theorem C56_three : (formula 20 .other (.list [str "a", str "=>", str "b", str "=>", str "c"])).toOption.bind readF =
      some (.imp [.imp [.at (.nm (anon "a")), .at (.nm (anon "b"))], .at (.nm (anon "c"))]) ∧
    (formula 20 .other (.list [str "a", str "~&", str "b", str "~&", str "c"])).toOption.bind readF =
      some (.neg (.and [.neg (.and [.at (.nm (anon "a")), .at (.nm (anon "b"))]), .at (.nm (anon "c"))])) := ⟨rfl, rfl⟩

/-- A word of the language as an argument: the atom `["p", "and"]` is the proposition p, `["p", "a", "or"]` is p or a. -/
theorem C56_word_argument : formula 20 .other (.list [str "p", str "and"]) = .ok (.atom (anon "p")) ∧
    formula 20 .other (.list [str "p", str "a", str "or"]) = .ok (.list [.atom (anon "or"), .atom (anon "p"), .atom (anon "a")]) := ⟨rfl, rfl⟩

end Gkc.Props.Js
