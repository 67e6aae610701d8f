import Verif.Props.Problem
import Verif.Props.Complete
/-
C67, continued: the answer of the search for a TPTP file.  The search is Loop.run (C61) or `rounds` (C62) on the clauses of the file.
-/
namespace Gkc.Props.Pb
open Gkc Gkc.Clausify Gkc.Pb Gkc.Loop
open Gkc.Ps.Spec (File Text Stmt)
open Gkc.Conv (Lst Atm)
open Gkc.Conv.Spec (T F Op sym word trees Struct)

/-- In every structure with at least two elements in which all other statements are true, some conjecture is true for some values
of its free variables.  For one closed conjecture: it follows from the other statements. -/
def Consequence (P : List Stmt) : Prop :=
  ∀ (D : Type) (S : Struct D), Normal S → (∀ st ∈ P, ¬ Goal st → ∀ v, S.means v st.frm) → ∃ st ∈ P, Goal st ∧ ∃ v, S.means v st.frm

/-- `lss` are the clauses that are built from the formulas and the clauses of the file, in any order -/
structure Built (fcs : List FCl) (raw : List Frm) (lss : List (List Gkc.Lit)) : Prop where
  all : ∀ fc, Given.Clauses fcs raw fc → ∃ ls ∈ lss, buildCl exVar fc = some ls
  only : ∀ ls ∈ lss, ∃ fc, Given.Clauses fcs raw fc ∧ buildCl exVar fc = some ls

/-- If the axioms are true and no conjecture is, then the clauses are true in some structure. -/
theorem clauses_true {c : VarCfg} {strat : Bool} {fuel sn nr : Nat} {items : List Item} {raw : List Frm} {fcs : List FCl}
    (sg : Const → SRole) (hF : Fresh sn nr sg) (hp : sg (.sym "$pr") = .unused) (htr : sg (.sym "$true") = .prop)
    (ha : ∀ it ∈ items, Adm c sg it.frm) (hr : ∀ f ∈ raw, Cnf f ∧ WtF c sg f) (hc : Clausifies c strat fuel sn nr items fcs)
    (M : FO) (h1 : M.pr (.sym "$true") []) (h0 : ¬ M.pr (.sym "$false") [])
    (d0 d1 : M.D) (hd : d0 ≠ d1) (hax : ∀ it ∈ items, it.conj = false → Sat c M.str it.frm) (hraw : ∀ f ∈ raw, Sat c M.str f)
    (goal : ¬ ∃ it ∈ items, it.conj = true ∧ ∃ τ, M.str.Val c τ ∧ M.str.fint.holds τ it.frm) :
    ∃ N : FO, Nonempty N.D ∧ ∀ fc, Given.Clauses fcs raw fc → ∀ ls, buildCl c fc = some ls → N.holds ls := by
  have hT : M.str.Truth := ⟨h1, h0⟩
  have adm : ∀ it ∈ items, Adm c sg it.prepared := fun it hm => (ha it hm).prepared
  have sat : ∀ it ∈ items, Sat c M.str it.prepared := by
    intro it hm
    unfold Item.prepared
    split
    · rename_i hcj
      exact fun τ hτ hh => goal ⟨it, hm, hcj, τ, hτ, hh⟩
    · rename_i hcj
      exact hax it hm (by simpa using hcj)
  obtain ⟨sg', x, w, k⟩ := clausifies_ok hc sg hF adm
  obtain ⟨S, o, hS⟩ := k M.str hT sat
  have w' : ∀ fc, Given.Clauses fcs raw fc → FWt c sg' fc := by
    rintro fc (hm | ⟨f, hf, cs, e, hm⟩)
    · exact w fc hm
    · exact ((flat_true (D := Unit) (hr f hf).1 (hr f hf).2 e).1 fc hm).mono hF x
  have hS' : ∀ fc, Given.Clauses fcs raw fc → ∀ τ, S.Val c τ → FCl.Holds S.fint τ fc := by
    rintro fc (hm | ⟨f, hf, cs, e, hm⟩)
    · exact hS fc hm
    · exact (flat_true (hr f hf).1 (hr f hf).2 e).2 S (o.truth hT) ((hraw f hf).off hF (hr f hf).2 o) fc hm
  have hp' : sg' (.sym "$pr") = .unused := by rw [x.keep (by simp), hp]
  have htr' : sg' (.sym "$true") = .prop := by rw [x.keep (by simp), htr]
  exact ⟨S.cl sg' d0 d1, ⟨d0⟩, fun fc hm ls e => (buildCl_ok hp' (S.cl_reads hp' hd) htr' (o.truth hT) (w' fc hm) e).2 (hS' fc hm)⟩

theorem settles_core {P : List Stmt} {rl : String → SRole} (hP : Fine rl P) {qd : String → Bool} (hq : Quotes qd P)
    {strat : Bool} {fuel sn nr : Nat} {fcs : List FCl} (hc : clausifyAll exVar strat fuel sn nr (itemsOf (P.map givenOf).reverse) = some fcs) {lss : List (List Gkc.Lit)}
    (hb : Built fcs (clausesOf (P.map givenOf).reverse) lss) (hin : PlainProblem lss) {o : Opt} (ho : Fitting (Mentioned lss) o) {k : Nat} {s : LState} :
    (Loop.run o k (Loop.start o lss) = .finished s → s.lost = false → ¬ Consequence P) ∧
    (Loop.run o k (Loop.start o lss) = .next s → s.st.refuted = true → Consequence P) := by
  refine ⟨fun h hlost hcons => ?_, fun h href D S hS hax => ?_⟩
  · obtain ⟨M, hM, all⟩ := C61_finished_means_satisfiable ho hin h hlost
    obtain ⟨C, hC, hn⟩ := contradictory_core hP hq hc lss hb.all hcons M hM.two hM.eq hM.tr hM.fa
    exact hn (all C hC)
  · obtain ⟨d0, d1, hd⟩ := hS.two
    have sat : ∀ st ∈ P, ¬ Goal st → Sat exVar (foOf S).str (fr st.frm) := fun st hm hg τ hτ =>
      (holds_F (link hS) st.frm hτ fun u hu => agree hS (hP.keeps st hm u hu)).2 (hax st hm hg _)
    by_contra goal
    obtain ⟨N, hN, all⟩ := clauses_true (sgOf rl) (hP.sig.fresh sn nr) hP.sig.pr hP.sig.tt
      (fun it hm => by
        obtain ⟨st, hst, e⟩ := mem_items hm
        rw [(givenOf_item e).1]
        exact adm_F hP.sig (hP.keeps st hst) (hP.apart st hst))
      (fun f hm => by
        obtain ⟨st, hst, e⟩ := mem_clauses hm
        obtain ⟨e1, e2, _⟩ := givenOf_clause (hP.ok st hst) e
        rw [e1]
        exact ⟨.cls (cls_F e2), wt_F hP.sig _ (hP.keeps st hst)⟩)
      (clausifyAll_rel hc) (foOf S) hS.tt hS.ff d0 d1 hd
      (fun it hm hj => by
        obtain ⟨st, hst, e⟩ := mem_items hm
        obtain ⟨e1, e2⟩ := givenOf_item e
        rw [e1]
        exact sat st hst fun g => by rw [e2.2 g] at hj; cases hj)
      (fun f hm => by
        obtain ⟨st, hst, e⟩ := mem_clauses hm
        obtain ⟨e1, _, e3⟩ := givenOf_clause (hP.ok st hst) e
        rw [e1]
        exact sat st hst e3)
      (by
        rintro ⟨it, hit, hcj, τ, hτ, hold⟩
        obtain ⟨st, hst, e⟩ := mem_items hit
        obtain ⟨e1, e2⟩ := givenOf_item e
        rw [e1] at hold
        exact goal ⟨st, hst, e2.1 hcj, _, (holds_F (link hS) st.frm hτ fun u hu => agree hS (hP.keeps st hst u hu)).1 hold⟩)
    obtain ⟨C, hC, hn⟩ := C61_proof_means_unsatisfiable ho.sort hin h href N
    obtain ⟨fc, hm, e⟩ := hb.only C hC
    exact hn (all fc hm C e)

theorem found_core {P : List Stmt} {rl : String → SRole} (hP : Fine rl P) {qd : String → Bool} (hq : Quotes qd P)
    {strat : Bool} {fuel sn nr : Nat} {fcs : List FCl} (hc : clausifyAll exVar strat fuel sn nr (itemsOf (P.map givenOf).reverse) = some fcs) {lss : List (List Gkc.Lit)}
    (hb : Built fcs (clausesOf (P.map givenOf).reverse) lss) (hin : PlainProblem lss) (hcons : Consequence P)
    {o : Nat → Opt} (ho : ∀ t, Fitting (Mentioned lss) (o t)) (hsel : ∀ t, (o t).sel = (o 0).sel) (hn : Lossless o lss)
    (hp : ∀ t, ∃ t', t ≤ t' ∧ ∀ q, (o t').pick q = 0) : ∃ t s, rounds o lss t = .next s ∧ s.st.refuted = true := by
  refine C62_oldest_again_and_again ho hsel hin ?_ hn hp
  rintro ⟨M, hM, all⟩
  obtain ⟨C, hC, h⟩ := contradictory_core hP hq hc lss hb.all hcons M hM.two hM.eq hM.tr hM.fa
  exact h (all C hC)

/-- **C67, the answer is right.** The search for the clauses of a file ends.  If it ends without a proof and nothing was thrown away, no conjecture
follows; if it ends with a proof, one does. -/
theorem C67_search_settles_the_file {l : Bool} {P : List Stmt} {ts : List Gkc.Ps.Tok} {txt : List Char} {rl : String → SRole}
    (hf : File l P ts) (ht : Text ts txt) (hP : Fine rl P) {qd : String → Bool} (hq : Quotes qd P)
    {n : Nat} {ls : List Lst} (hl : statements n txt = some ls) {strat : Bool} {fuel sn nr : Nat} {fcs : List FCl}
    (hc : clausifyAll exVar strat fuel sn nr (itemsOf (ls.map Gkc.Pb.given)) = some fcs) {lss : List (List Gkc.Lit)}
    (hb : Built fcs (clausesOf (ls.map Gkc.Pb.given)) lss) (hin : PlainProblem lss) {o : Opt} (ho : Fitting (Mentioned lss) o) {k : Nat} {s : LState} :
    (Loop.run o k (Loop.start o lss) = .finished s → s.lost = false → ¬ Consequence P) ∧
    (Loop.run o k (Loop.start o lss) = .next s → s.st.refuted = true → Consequence P) := by
  obtain ⟨n', hn'⟩ := statements_eq hf ht
  cases statements_one hl (hn' n' (Nat.le_refl _))
  rw [given_map hP] at hc hb
  exact settles_core hP hq hc hb hin ho

/-- **C67, what follows is proved.** If a conjecture of the file follows, then a search that picks the oldest clause again and again, and neither fails for want of
memory nor throws a clause away, finds a proof. -/
theorem C67_proof_is_found {l : Bool} {P : List Stmt} {ts : List Gkc.Ps.Tok} {txt : List Char} {rl : String → SRole}
    (hf : File l P ts) (ht : Text ts txt) (hP : Fine rl P) {qd : String → Bool} (hq : Quotes qd P)
    {n : Nat} {ls : List Lst} (hl : statements n txt = some ls) {strat : Bool} {fuel sn nr : Nat} {fcs : List FCl}
    (hc : clausifyAll exVar strat fuel sn nr (itemsOf (ls.map Gkc.Pb.given)) = some fcs) {lss : List (List Gkc.Lit)}
    (hb : Built fcs (clausesOf (ls.map Gkc.Pb.given)) lss) (hin : PlainProblem lss) (hcons : Consequence P)
    {o : Nat → Opt} (ho : ∀ t, Fitting (Mentioned lss) (o t)) (hsel : ∀ t, (o t).sel = (o 0).sel) (hn : Lossless o lss)
    (hp : ∀ t, ∃ t', t ≤ t' ∧ ∀ q, (o t').pick q = 0) : ∃ t s, rounds o lss t = .next s ∧ s.st.refuted = true := by
  obtain ⟨n', hn'⟩ := statements_eq hf ht
  cases statements_one hl (hn' n' (Nat.le_refl _))
  rw [given_map hP] at hc hb
  exact found_core hP hq hc hb hin hcons ho hsel hn hp

/-! ### Cases -/

open Gkc.Ps.Spec

/-- the clauses of the example -/
def exLs : List (List Gkc.Lit) := [[⟨false, ap "p" [cn "a"]⟩], [⟨true, ap "q" [cn "a"]⟩], [⟨true, ap "p" [.var 0]⟩, ⟨false, ap "q" [.var 0]⟩]]

theorem ex_lss : Built exClauses [exRaw] exLs where
  all := by
    rintro fc (h | ⟨f, hf, cs, e, h⟩)
    · simp only [exClauses, List.mem_cons, List.not_mem_nil, or_false] at h
      rcases h with rfl | rfl
      · exact ⟨_, .head _, by rfl⟩
      · exact ⟨_, .tail _ (.head _), by rfl⟩
    · rw [List.mem_singleton.1 hf, ex_flat] at e
      cases e
      rw [List.mem_singleton.1 h]
      exact ⟨_, .tail _ (.tail _ (.head _)), by rfl⟩
  only := by
    intro ls h
    simp only [exLs, List.mem_cons, List.not_mem_nil, or_false] at h
    rcases h with rfl | rfl | rfl
    · exact ⟨_, .inl (.head _), by rfl⟩
    · exact ⟨_, .inl (.tail _ (.head _)), by rfl⟩
    · exact ⟨_, .inr ⟨_, .head _, _, ex_flat, .head _⟩, by rfl⟩

theorem ex_plain : PlainProblem exLs := Cp.plain_of (by decide +kernel)

/-- the search for the clauses of the text finds a proof, and so the conjecture follows -/
theorem ex_follows : Consequence exProblem := by
  obtain ⟨ts, hf, ht⟩ := ex_file
  obtain ⟨n, hn⟩ := statements_eq hf ht
  obtain ⟨s, h, hr⟩ := Cp.isProof_iff (r := Loop.run (Cp.opts 100) 20 (Loop.start (Cp.opts 100) exLs)) (by decide +kernel)
  exact (C67_search_settles_the_file hf ht ex_fine ex_quotes (hn n (Nat.le_refl _)) (by rw [ex_given.1]; exact ex_all)
    (by rw [ex_given.2]; exact ex_lss) ex_plain (Cp.opts_fit (by omega))).2 h hr

/-- a problem with no proof: the rule is missing -/
def noText : List Char := "fof(c,conjecture,q(a)).\nfof(a,axiom,p(a)).".toList

/-- what it says -/
def noProblem : List Stmt :=
  [⟨some ("fof", false, "c", "conjecture"), .atom false "q" [.name false "a"]⟩, ⟨some ("fof", false, "a", "axiom"), .atom false "p" [.name false "a"]⟩]

theorem no_file : ∃ ts, File false noProblem ts ∧ Text ts noText := by
  refine ⟨_, .cons (.item "fof" false "c" "conjecture" (.unit (.atom false "q" [.name false "a"] (by simp) (by simp [okL, ok])))) (by decide) <|
    .cons (.item "fof" false "a" "axiom" (.unit (.atom false "p" [.name false "a"] (by simp) (by simp [okL, ok])))) (by decide) .nil, ?_⟩
  exact text_eq (
    text_word 'f' ['o', 'f'] '(' (by decide) (by decide) <| text_sign (t := lpar) '(' (by decide) <|
    text_word 'c' [] ',' (by decide) (by decide) <| text_sign (t := comma) ',' (by decide) <|
    text_word 'c' ['o', 'n', 'j', 'e', 'c', 't', 'u', 'r', 'e'] ',' (by decide) (by decide) <| text_sign (t := comma) ',' (by decide) <|
    text_word 'q' [] '(' (by decide) (by decide) <| text_sign (t := lpar) '(' (by decide) <|
    text_word 'a' [] ')' (by decide) (by decide) <| text_sign (t := rpar) ')' (by decide) <|
    text_sign (t := rpar) ')' (by decide) <| text_sign (t := dot) '.' (by decide) <| text_blank '\n' (by simp) <|
    text_word 'f' ['o', 'f'] '(' (by decide) (by decide) <| text_sign (t := lpar) '(' (by decide) <|
    text_word 'a' [] ',' (by decide) (by decide) <| text_sign (t := comma) ',' (by decide) <|
    text_word 'a' ['x', 'i', 'o', 'm'] ',' (by decide) (by decide) <| text_sign (t := comma) ',' (by decide) <|
    text_word 'p' [] '(' (by decide) (by decide) <| text_sign (t := lpar) '(' (by decide) <|
    text_word 'a' [] ')' (by decide) (by decide) <| text_sign (t := rpar) ')' (by decide) <|
    text_sign (t := rpar) ')' (by decide) <| text_sign (t := dot) '.' (by decide) <| .nil .nil) (by decide +kernel) (by decide +kernel)

theorem no_sub {s : Stmt} (h : s ∈ noProblem) : s ∈ exProblem := by
  simp only [noProblem, List.mem_cons, List.not_mem_nil, or_false] at h
  rcases h with rfl | rfl
  · exact .head _
  · exact .tail _ (.tail _ (.head _))

theorem no_fine : Fine exRl noProblem :=
  ⟨ex_fine.sig, fun s h => ex_fine.ok s (no_sub h), fun s h => ex_fine.keeps s (no_sub h), fun s h => ex_fine.apart s (no_sub h)⟩

/-- its clauses -/
def noLs : List (List Gkc.Lit) := [[⟨false, ap "p" [cn "a"]⟩], [⟨true, ap "q" [cn "a"]⟩]]

theorem no_lss : Built exClauses [] noLs where
  all := by
    rintro fc (h | ⟨f, hf, cs, e, h⟩)
    · simp only [exClauses, List.mem_cons, List.not_mem_nil, or_false] at h
      rcases h with rfl | rfl
      · exact ⟨_, .head _, by rfl⟩
      · exact ⟨_, .tail _ (.head _), by rfl⟩
    · cases hf
  only := by
    intro ls h
    simp only [noLs, List.mem_cons, List.not_mem_nil, or_false] at h
    rcases h with rfl | rfl
    · exact ⟨_, .inl (.head _), by rfl⟩
    · exact ⟨_, .inl (.tail _ (.head _)), by rfl⟩

/-- the search for the clauses of this text ends without a proof, and so the conjecture does not follow -/
example : ¬ Consequence noProblem := by
  obtain ⟨ts, hf, ht⟩ := no_file
  obtain ⟨n, hn⟩ := statements_eq hf ht
  obtain ⟨s, h, hr⟩ := Cp.isFinished_iff (r := Loop.run (Cp.opts 100) 20 (Loop.start (Cp.opts 100) noLs)) (b := false) (by decide +kernel)
  exact (C67_search_settles_the_file hf ht no_fine ⟨ex_quotes.signs, fun s h => ex_quotes.same s (no_sub h)⟩ (hn n (Nat.le_refl _))
    (by rw [given_map no_fine]; exact ex_all) (by rw [given_map no_fine]; exact no_lss) (Cp.plain_of (by decide +kernel)) (Cp.opts_fit (by omega))).1 h hr

theorem ex_stay {t : Nat} (h : 12 ≤ t) : rounds Cp.turns exLs t = rounds Cp.turns exLs 12 := by
  induction t with
  | zero => omega
  | succ t ih =>
    by_cases e : t + 1 = 12
    · rw [e]
    · have ih := ih (by omega)
      obtain ⟨s, hs, hr⟩ := Cp.isProof_iff (r := rounds Cp.turns exLs 12) (by decide +kernel)
      have step : rounds Cp.turns exLs (t + 1) = match rounds Cp.turns exLs t with
          | .next s => if s.st.refuted then .next s else iter (Cp.turns t) s
          | r => r := rfl
      rw [step, ih, hs]
      exact if_pos hr

theorem ex_lossless : Lossless Cp.turns exLs := by
  have key : ∀ t, Cp.fine (rounds Cp.turns exLs t) = true := by
    intro t
    by_cases h : 12 ≤ t
    · rw [ex_stay h]; decide +kernel
    · have : ∀ t < 12, Cp.fine (rounds Cp.turns exLs t) = true := by decide +kernel
      exact this t (by omega)
  refine ⟨fun t e => ?_, fun t s e => ?_⟩
  · have := key t
    rw [e] at this
    cases this
  · have := key t
    rw [e] at this
    simpa [Cp.fine] using this

/-- the hypotheses of the last theorem are met by the first text -/
example : ∃ t s, rounds Cp.turns exLs t = .next s ∧ s.st.refuted = true := by
  obtain ⟨ts, hf, ht⟩ := ex_file
  obtain ⟨n, hn⟩ := statements_eq hf ht
  exact C67_proof_is_found hf ht ex_fine ex_quotes (hn n (Nat.le_refl _)) (by rw [ex_given.1]; exact ex_all) (by rw [ex_given.2]; exact ex_lss) ex_plain ex_follows
    Cp.turns_fit (fun _ => rfl) ex_lossless fun t => ⟨2 * t, by omega, fun q => by simp [Cp.turns]⟩

end Gkc.Props.Pb
