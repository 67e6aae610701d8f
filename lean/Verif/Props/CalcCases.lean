import Verif.Props.Calc
/-
C58: structures in which all computations are true, a proof by computing, and a wrong one.
-/
namespace Gkc.Props.Calc
open Gkc Gkc.Props Gkc.Clausify Gkc.Arith
open Gkc.Term (vars varsL size)

/-! ### Structures exist -/

/-- terms, with the computed values -/
def calcFO : FO where
  D := Term
  cst k := .const k
  fn f ds := match computeRec true (.app f ds) with
    | .val v => v
    | _ => .app f ds
  pr f ds := if f = .sym "=" then ∃ a, ds = [a, a] else f = .sym "$true" ∨ computeRec true (.app f ds) = Res.bool true

theorem calc_eq (ds : List Term) : calcFO.pr (.sym "=") ds ↔ ∃ a, ds = [a, a] := by
  unfold calcFO
  simp

theorem calc_pr {f : Const} (h : f ≠ .sym "=") (h' : f ≠ .sym "$true") (ds : List Term) :
    calcFO.pr f ds ↔ computeRec true (.app f ds) = Res.bool true := by
  unfold calcFO
  simp [h, h']

theorem compute_append {c : Comp} (hc : onData c = true) {as : List Term} {v : Term} (ds : List Term) (h : compute c as = .val v) :
    compute c (as ++ ds) = .val v := by
  have two : ∀ c, arith2 c as = .val v → arith2 c (as ++ ds) = .val v := by
    intro c e
    obtain ⟨j, k, r, _, _, rfl, e⟩ := arith2_data e
    exact e
  have one : ∀ c, arith1 c as = .val v → arith1 c (as ++ ds) = .val v := by
    intro c e
    obtain ⟨j, r, hj, rfl, e⟩ := arith1_data e
    cases j <;> first | exact e | cases e
  have less : ∀ e l, lesseqCore e l as = .val v → lesseqCore e l (as ++ ds) = .val v := by
    intro e l h
    rcases as with _ | ⟨a, _ | ⟨b, r⟩⟩
    · cases h
    · cases h
    · exact h
  cases c <;> simp only [compute] at h ⊢ <;> first | exact two _ h | exact one _ h | exact less _ _ h | (cases hc; done)

theorem rec_eq {f : Const} {c : Comp} (h : computable true f = some c) (as : List Term) : computeRec true (.app f as) = compute c as := by
  simp [computeRec, h]

/-- C58.  There is a structure in which everything that can be computed is true. -/
theorem C58_structure_exists : Computes true (fun _ => True) calcFO ∧ (∀ a b, calcFO.pr (.sym "=") [a, b] ↔ a = b) ∧
    calcFO.pr (.sym "$true") [] ∧ ¬ calcFO.pr (.sym "$false") [] := by
  have lst : ∀ x y, calcFO.fn (.sym "$list") [x, y] = Term.app (.sym "$list") [x, y] := fun x y => rfl
  have fn : ∀ f c, computable true f = some c → ∀ ds v, compute c ds = .val v → calcFO.fn f ds = v := by
    intro f c hc ds v e
    show (match computeRec true (.app f ds) with | .val v => v | _ => .app f ds) = v
    rw [rec_eq hc, e]
  have pr : ∀ f c, computable true f = some c → c ≠ .equal → ∀ ds : List Term, calcFO.pr f ds ↔ compute c ds = Res.bool true := by
    intro f c hc hne ds
    have h1 : f ≠ .sym "=" := by rintro rfl; exact hne (Option.some.inj hc).symm
    have h2 : f ≠ .sym "$true" := by rintro rfl; simp [computable] at hc
    exact (calc_pr h1 h2 ds).trans (by rw [rec_eq hc])
  refine ⟨⟨fun j k _ _ e => Term.const.inj e, fun _ x y x' y' e => ?_, fun _ x y k _ e => ?_, fun _ f hc _ x y => ?_, fun _ f hc _ x y => ?_,
    fun f c hc _ hd ks k ds _ e _ => ?_, fun f c hc _ hd ks b ds _ e => ?_, fun f c hc _ x ds => ⟨fun hl => ?_, fun hl => ?_⟩⟩, fun a b => ?_, ?_, ?_⟩
  · rw [lst, lst] at e
    have e : Term.app (.sym "$list") [x, y] = Term.app (.sym "$list") [x', y'] := e
    injection e with _ e
    injection e with e1 e
    injection e with e2 e
    exact ⟨e1, e2⟩
  · rw [lst] at e; cases e
  · rw [lst]; exact fn f _ hc _ _ rfl
  · rw [lst]; exact fn f _ hc _ _ rfl
  · exact fn f c hc _ _ (compute_append hd ds e)
  · refine (pr f c hc (by rintro rfl; cases hd) _).trans ?_
    have e := compute_append hd (ds : List Term) e
    exact ⟨fun h => bool_inj (e.symm.trans h), fun h => by subst h; exact e⟩
  · have self : compute c (x :: x :: ds) = Res.bool false := by rcases hl with rfl | rfl <;> exact if_pos rfl
    exact fun h => Bool.noConfusion (bool_inj (self.symm.trans ((pr f c hc (by rcases hl with rfl | rfl <;> simp) _).1 h)))
  · have self : compute c (x :: x :: ds) = Res.bool true := by rcases hl with rfl | rfl <;> exact if_pos rfl
    exact (pr f c hc (by rcases hl with rfl | rfl <;> simp) _).2 self
  · refine (calc_eq _).trans ?_
    constructor
    · rintro ⟨x, e⟩
      injection e with e1 e
      injection e with e2 e
      rw [e1, e2]
    · rintro rfl; exact ⟨a, rfl⟩
  · exact .inl rfl
  · simp [calcFO, computeRec, computable, Res.bool]

/-! ### A proof by computing -/

/-- axiom `p($sum(1,2))`, conjecture `p(3)` -/
def sumItems : List Item :=
  [⟨false, .at (.app (uri "p") [.app (uri "$sum") [.nm ⟨3, "1"⟩, .nm ⟨3, "2"⟩]])⟩, ⟨true, .at (.app (uri "p") [.nm ⟨3, "3"⟩])⟩]

/-- the clauses: `p(+(1,2))` and `-p(3)` -/
def sumInput : List (List ALit) :=
  [[⟨0, false, ap "p" [ap "+" [.const (.int 1), .const (.int 2)]]⟩], [⟨0, true, ap "p" [.const (.int 3)]⟩]]

/-- evaluation with arithmetic -/
def calcCfg : Cfg := ⟨evalRec true, wdEx, fun _ => 0, fun _ => 0⟩

def sumRole : Const → SRole
  | .sym s => if s = "p" then .pred else if s = "+" then .func else if s = "$true" ∨ s = "$false" then .prop else .unused
  | .int _ => .cnst
  | .dbl _ => .cnst
  | _ => .unused

theorem sumClausifies : ∃ fcs, Clausifies exVar true 9 0 0 sumItems fcs ∧
    ∀ cl ∈ sumInput, ∃ fc ∈ fcs, ∃ ls, buildCl exVar fc = some ls ∧ NewCl ls cl := by
  have l1 : ∀ t, Clausify.flat (.at t) = some [.lits [.at t]] := fun t => by simp [Clausify.flat, flatOr]
  have l2 : ∀ t, Clausify.flat (.neg (.at t)) = some [.lits [.neg (.at t)]] := fun t => by simp [Clausify.flat, flatOr]
  refine ⟨_, .one (g := .at (.app (uri "p") [.app (uri "$sum") [.nm ⟨3, "1"⟩, .nm ⟨3, "2"⟩]])) rfl (l1 _)
    (.one (g := .neg (.at (.app (uri "p") [.nm ⟨3, "3"⟩]))) (by rfl) (l2 _) .nil), ?_⟩
  intro cl h
  simp only [sumInput, List.mem_cons, List.not_mem_nil, or_false] at h
  have e1 : primOf false ⟨3, "1"⟩ = some (.int 1) := by decide +kernel
  have e2 : primOf false ⟨3, "2"⟩ = some (.int 2) := by decide +kernel
  have e3 : primOf false ⟨3, "3"⟩ = some (.int 3) := by decide +kernel
  have e4 : primOf true (uri "p") = some (.sym "p") := by decide
  have v : ∀ q, isVar exVar ⟨3, q⟩ = false := fun q => rfl
  rcases h with rfl | rfl
  · refine ⟨_, .head _, [⟨false, ap "p" [ap "+" [.const (.int 1), .const (.int 2)]]⟩], ?_, rfl, by simp [Sep]⟩
    simp only [buildCl, buildLs, Clausify.buildL, buildA, buildTL, buildT, v, Bool.false_eq_true, if_false, e1, e2, e4, Option.map_some,
      Option.bind_some]
    rfl
  · refine ⟨_, .tail _ (.head _), [⟨true, ap "p" [.const (.int 3)]⟩], ?_, rfl, by simp [Sep]⟩
    simp only [buildCl, buildLs, Clausify.buildL, buildA, buildTL, buildT, v, Bool.false_eq_true, if_false, e3, e4, Option.map_some,
      Option.bind_some]
    rfl

theorem sumRun : ∃ s, Run calcCfg ShortActive sumInput s ∧ s.refuted = true := by
  have r0 : Run calcCfg ShortActive sumInput _ := .start (by simp [ShortActive, PState.init])
  have r1 := Run.step r0 (.pick (cl := [⟨0, false, ap "p" [ap "+" [.const (.int 1), .const (.int 2)]]⟩]) (.head _) (List.Perm.refl _)) (by simp [ShortActive, PState.init])
  have r2 := Run.step r1 (.activate (g := tagPos _) (a := tagPos _) (n := 9) (n' := 9) (r := [⟨false, ap "p" [.const (.int 3)]⟩]) (r' := [⟨false, ap "p" [.const (.int 3)]⟩])
    rfl rfl rfl (tagPos_new _) rfl (tagPos_new _)) (by simp [ShortActive, PState.init, tagPos])
  have r3 := Run.step r2 (.pick (cl := [⟨0, true, ap "p" [.const (.int 3)]⟩]) (by simp [PState.init, sumInput]) (List.Perm.refl _))
    (by simp [ShortActive, PState.init, tagPos])
  have r4 := Run.step r3 (.activate (g := tagPos _) (a := tagPos _) (n := 9) (n' := 9) rfl rfl rfl (tagPos_new _) rfl (tagPos_new _))
    (by simp [ShortActive, PState.init, tagPos])
  have r5 := Run.step r4 (.deriveEmpty (.resolve (y := [⟨0, false, ap "p" [.const (.int 3)]⟩]) (n := 9) (i := 0) (j := 0) rfl (.tail _ (.head _)) rfl)
    (cutsNone _) clean_empty tagPos_new (fwd := true) (strong := false) (sdup := false) (m := fun _ => 0) (n := 9) rfl)
    (by simp [ShortActive, PState.init, tagPos])
  exact ⟨_, r5, rfl⟩

theorem sumFresh : Fresh 0 0 sumRole := by
  intro s hs
  obtain ⟨t, ht⟩ := new_chars hs
  simp only [sumRole]
  rw [if_neg, if_neg, if_neg]
  · rintro (rfl | rfl) <;> simp at ht
  · rintro rfl; simp at ht
  · rintro rfl; simp at ht

theorem sumAdm : ∀ it ∈ sumItems, Adm exVar sumRole it.frm := by
  intro it h
  simp only [sumItems, List.mem_cons, List.not_mem_nil, or_false] at h
  have vp : isVar exVar (uri "p") = false := by decide
  have vs : isVar exVar (uri "$sum") = false := by decide
  have num : ∀ s : String, (s.toList ≠ [] ∧ s.toList.all Char.isDigit = true ∧ decimal s < 2 ^ 31) → WtFT exVar sumRole (.nm ⟨3, s⟩) :=
    fun s hs => .inr ⟨.inr (.inr (.inl ⟨rfl, hs⟩)), (fun h => by simp at h), rfl⟩
  rcases h with rfl | rfl
  · refine ⟨.at _, fun n h => h.elim, fun n m hn hm h1 h2 e => ?_, fun t ht => ?_⟩
    · simp only [nameIn, freeIn, boundIn, namesT, namesTL, List.mem_cons, List.mem_append, List.not_mem_nil, or_false, List.append_nil] at hn hm
      rcases hn with rfl | rfl | rfl | rfl <;> rcases hm with rfl | rfl | rfl | rfl <;> first | rfl | simp [uri] at e
    · cases ht
      exact ⟨.inl rfl, vp, by simp [symbolOf, sumRole, uri], by simp [symbolOf, uri],
        ⟨.inl rfl, vs, ⟨by simp [uri], .inl rfl⟩, by simp [funSym, sumRole, uri], num "1" (by decide +kernel), num "2" (by decide +kernel), trivial⟩, trivial⟩
  · refine ⟨.at _, fun n h => h.elim, fun n m hn hm h1 h2 e => ?_, fun t ht => ?_⟩
    · simp only [nameIn, freeIn, boundIn, namesT, namesTL, List.mem_cons, List.mem_append, List.not_mem_nil, or_false, List.append_nil] at hn hm
      rcases hn with rfl | rfl <;> rcases hm with rfl | rfl <;> first | rfl | simp [uri] at e
    · cases ht
      exact ⟨.inl rfl, vp, by simp [symbolOf, sumRole, uri], by simp [symbolOf, uri], num "3" (by decide +kernel), trivial⟩

theorem sumCompRoles : CompRoles true sumRole := by
  have only : ∀ f c, computable true f = some c → sumRole f = .pred ∨ sumRole f = .func → f = .sym "+" ∧ sumRole f = .func := by
    intro f c hc h
    cases f with
    | sym s =>
      by_cases h1 : s = "+"
      · subst h1; exact ⟨rfl, rfl⟩
      · by_cases h2 : s = "p"
        · subst h2; simp [computable] at hc
        · simp only [sumRole, h1, h2, if_false] at h
          split at h <;> simp at h
    | _ => simp [computable] at hc
  refine ⟨fun k hk => ?_, fun f c hc h => ?_, fun f c hc h => ?_⟩
  · cases k with
    | sym s => have : s = "$nil" := hk; subst this; simp [sumRole]
    | int i => simp [sumRole]
    | dbl i => simp [sumRole]
    | str i => simp [sumRole]
    | _ => exact hk.elim
  · obtain ⟨_, e⟩ := only f c hc (.inl h)
    rw [e] at h; cases h
  · obtain ⟨rfl, _⟩ := only f c hc (.inr h)
    simp [computable] at hc
    subst hc
    simp [givesTruth]

/-- in every structure with ordinary arithmetic: if `p($sum(1,2))`, then `p(3)` -/
example (M : FO) (he : ∀ a b, M.pr (.sym "=") [a, b] ↔ a = b) (h1 : M.pr (.sym "$true") []) (h0 : ¬ M.pr (.sym "$false") [])
    (hM : Numbers (Uses sumRole) M) (hax : ∀ it ∈ sumItems, it.conj = false → Sat exVar M.str it.frm) :
    M.pr (.sym "p") [M.cst (.int 3)] := by
  obtain ⟨fcs, hc, hb⟩ := sumClausifies
  obtain ⟨s, r, hs⟩ := sumRun
  obtain ⟨it, hm, hcj, τ, hτ, h⟩ := C58_proof_means_consequence_partial sumRole sumFresh (by simp [sumRole]) (by simp [sumRole])
    (fun k hk => by cases k <;> simp_all [isNumber, sumRole]) true sumCompRoles sumAdm hc _ _ _ sumInput hb s r hs M he h1 h0
    (C58_ordinary_arithmetic hM) hax
  simp only [sumItems, List.mem_cons, List.not_mem_nil, or_false] at hm
  rcases hm with rfl | rfl
  · cases hcj
  · have e := hτ ⟨3, "3"⟩ rfl
    have e3 : symbolOf ⟨3, "3"⟩ = .int 3 := by decide +kernel
    rw [e3] at e
    simp only [FInt.holds, FInt.atom, FInt.evL, FInt.ev, e] at h
    exact h

/-- an operation on two numbers -/
def onTwo (oi : Int → Int → Int) (oq : Rat → Rat → Rat) : List Term → Term
  | .const (.int i) :: .const (.int j) :: _ => .const (.int (oi i j))
  | .const a :: .const b :: _ => match numD a, numD b with
    | some (.fin x), some (.fin y) => match rnd (oq x y) with
      | .fin z => .const (.dbl (.fin z))
      | _ => .const a
    | _, _ => .const a
  | _ => .const (.int 0)

/-- a number as an integer -/
def toWhole (f : Rat → Int) : List Term → Term
  | .const (.int i) :: _ => .const (.int i)
  | .const (.dbl (.fin q)) :: _ => .const (.int (f q))
  | _ => .const (.int 0)

/-- the smaller number -/
def smaller : Const → Const → Prop
  | .int i, .int j => i < j
  | a, b => match numD a, numD b with
    | some (.fin x), some (.fin y) => x < y
    | _, _ => False

/-- terms with ordinary arithmetic -/
def numAll : FO where
  D := Term
  cst k := .const k
  fn f ds := match f with
    | .sym "+" => onTwo (fun i j => i + j) (fun i j => i + j) ds
    | .sym "$sum" => onTwo (fun i j => i + j) (fun i j => i + j) ds
    | .sym "-" => onTwo (fun i j => i - j) (fun i j => i - j) ds
    | .sym "$difference" => onTwo (fun i j => i - j) (fun i j => i - j) ds
    | .sym "*" => onTwo (fun i j => i * j) (fun i j => i * j) ds
    | .sym "$product" => onTwo (fun i j => i * j) (fun i j => i * j) ds
    | .sym "$floor" => toWhole (fun q => q.floor) ds
    | .sym "$to_int" => toWhole (fun q => q.floor) ds
    | .sym "$ceiling" => toWhole (fun q => q.ceil) ds
    | .sym "$truncate" => toWhole (fun q => if q < 0 then q.ceil else q.floor) ds
    | .sym "$round" => toWhole (fun q => if q < 0 then (q - 1 / 2).ceil else (q + 1 / 2).floor) ds
    | .sym "$to_real" => match ds with
      | .const (.int i) :: _ => .const (.dbl (rnd i))
      | .const (.dbl d) :: _ => .const (.dbl d)
      | _ => .const (.int 0)
    | .sym "$strlen" => match ds with
      | .const (.str t) :: _ => .const (.int t.toList.length)
      | _ => .const (.int 0)
    | .sym "$uminus" => match ds with
      | .const (.int i) :: _ => .const (.int (-i))
      | .const (.dbl (.fin q)) :: _ => .const (.dbl (.fin (-q)))
      | _ => .const (.int 0)
    | .sym "$first" => match ds with
      | [.app _ [x, _]] => x
      | _ => .const (.int 0)
    | .sym "$rest" => match ds with
      | [.app _ [_, y]] => y
      | _ => .const (.int 0)
    | f => .app f ds
  pr f ds := match f with
    | .sym "=" => ∃ a, ds = [a, a]
    | .sym "$less" => ∃ a b r, ds = .const a :: .const b :: r ∧ smaller a b
    | .sym "$greater" => ∃ a b r, ds = .const a :: .const b :: r ∧ smaller b a
    | .sym "$is_int" => ∃ i r, ds = .const (.int i) :: r
    | .sym "$is_real" => ∃ d r, ds = .const (.dbl d) :: r
    | .sym "$is_number" => ∃ k r, ds = .const k :: r ∧ Gkc.isNumber k
    | _ => True

theorem onTwo_mixed {oi : Int → Int → Int} {oq : Rat → Rat → Rat} {a b : Const} {x y z : Rat} {ds : List Term} (h : Mixed a b x y)
    (hz : rnd (oq x y) = .fin z) : onTwo oi oq (.const a :: .const b :: ds) = .const (.dbl (.fin z)) := by
  obtain ⟨h1, h2, h3⟩ := h
  unfold onTwo
  split
  · rename_i e; cases e; exact (h3 _ _ ⟨rfl, rfl⟩).elim
  · rename_i e; cases e; simp only [h1, h2, hz]
  · rename_i e; exact (e _ _ _ rfl).elim

theorem smaller_irr (a : Const) : ¬ smaller a a := by
  unfold smaller
  split
  · exact Int.lt_irrefl _
  · split
    · rename_i e1 e2; rw [e1] at e2; cases e2; exact Rat.lt_irrefl
    · exact id

theorem smaller_mixed {a b : Const} {x y : Rat} (h : Mixed a b x y) : smaller a b ↔ x < y := by
  obtain ⟨h1, h2, h3⟩ := h
  unfold smaller
  split
  · exact (h3 _ _ ⟨rfl, rfl⟩).elim
  · simp only [h1, h2]

theorem Mixed.symm {a b : Const} {x y : Rat} (h : Mixed a b x y) : Mixed b a y x := ⟨h.2.1, h.1, fun i j e => h.2.2 j i e.symm⟩

/-- Ordinary arithmetic exists: one structure has all of it, for all the symbols at once. -/
theorem C58_numbers_exist : Numbers (fun f => f = .sym "$list" ∨ ∃ s ∈ numSyms, f = .sym s) numAll := by
  constructor
  case distinct => exact fun j k _ _ e => Term.const.inj e
  case only =>
    intro f c hc hu
    obtain rfl | hu := hu
    · simp [computable] at hc
    · exact hu
  case listInj =>
    intro _ x y x' y' e
    cases Term.app.inj e with
    | intro _ e => cases e; exact ⟨rfl, rfl⟩
  case listData => intro _ x y k _ e; cases e
  case first => intro _ x y; rfl
  case rest => intro _ x y; rfl
  case toI =>
    intro p hp _ i ds
    simp only [toInts, List.mem_cons, List.not_mem_nil, or_false] at hp
    rcases hp with rfl | rfl | rfl | rfl | rfl <;> rfl
  case toD =>
    intro p hp _ q ds
    simp only [toInts, List.mem_cons, List.not_mem_nil, or_false] at hp
    rcases hp with rfl | rfl | rfl | rfl | rfl <;> rfl
  case realI => intro _ i q ds e; exact congrArg (fun d => Term.const (.dbl d)) e
  case realD => intro _ d ds; rfl
  case strlen => intro _ t ds; rfl
  case int =>
    intro p hp _ i j ds
    simp only [intOps, List.mem_cons, List.not_mem_nil, or_false] at hp
    rcases hp with rfl | rfl | rfl | rfl | rfl | rfl <;> rfl
  case dbl =>
    intro p hp _ a b x y z ds hm hz
    simp only [ratOps, List.mem_cons, List.not_mem_nil, or_false] at hp
    rcases hp with rfl | rfl | rfl | rfl | rfl | rfl <;> exact onTwo_mixed hm hz
  case negI => intro _ i ds; rfl
  case negD => intro _ q ds; rfl
  case lessI =>
    intro _ i j ds
    constructor
    · rintro ⟨a, b, r, e, h⟩; cases e; exact h
    · intro h; exact ⟨_, _, _, rfl, h⟩
  case lessD =>
    intro _ a b x y ds hm
    constructor
    · rintro ⟨a, b, r, e, h⟩; cases e; exact (smaller_mixed hm).1 h
    · intro h; exact ⟨_, _, _, rfl, (smaller_mixed hm).2 h⟩
  case lessX =>
    rintro _ x ds ⟨a, b, r, e, h⟩
    cases e; exact smaller_irr _ h
  case greaterI =>
    intro _ i j ds
    constructor
    · rintro ⟨a, b, r, e, h⟩; cases e; exact h
    · intro h; exact ⟨_, _, _, rfl, h⟩
  case greaterD =>
    intro _ a b x y ds hm
    constructor
    · rintro ⟨a, b, r, e, h⟩; cases e; exact (smaller_mixed hm.symm).1 h
    · intro h; exact ⟨_, _, _, rfl, (smaller_mixed hm.symm).2 h⟩
  case greaterX =>
    rintro _ x ds ⟨a, b, r, e, h⟩
    cases e; exact smaller_irr _ h
  case isInt =>
    intro _ k ds _ _
    constructor
    · rintro ⟨i, r, e⟩; cases e; exact ⟨i, rfl⟩
    · rintro ⟨i, rfl⟩; exact ⟨_, _, rfl⟩
  case isReal =>
    intro _ k ds _ _
    constructor
    · rintro ⟨i, r, e⟩; cases e; exact ⟨i, rfl⟩
    · rintro ⟨i, rfl⟩; exact ⟨_, _, rfl⟩
  case isNumber =>
    intro _ k ds _ _
    constructor
    · rintro ⟨i, r, e, h⟩; cases e; exact h
    · intro h; exact ⟨_, _, rfl, h⟩

/-- terms with sums; `p` is true of 3 -/
def numFO : FO where
  D := Term
  cst k := .const k
  fn f ds := match f, ds with
    | .sym "+", .const (.int i) :: .const (.int j) :: _ => .const (.int (i + j))
    | .sym "+", .const a :: .const b :: _ => match numD a, numD b with
      | some (.fin x), some (.fin y) => match rnd (x + y) with
        | .fin z => .const (.dbl (.fin z))
        | _ => .const a
      | _, _ => .const a
    | f, ds => .app f ds
  pr f ds := (f = .sym "=" ∧ ∃ a, ds = [a, a]) ∨ (f = .sym "p" ∧ ds = [.const (.int 3)]) ∨ f = .sym "$true"

/-- there is a structure with ordinary arithmetic in which the axiom is true -/
example : Numbers (Uses sumRole) numFO ∧ ∀ it ∈ sumItems, it.conj = false → Sat exVar numFO.str it.frm := by
  have no : ∀ s, s ≠ "p" → s ≠ "+" → ¬ Uses sumRole (.sym s) := by
    intro s h1 h2 h
    simp only [Uses, sumRole, h1, h2, if_false] at h
    split at h <;> simp at h
  refine ⟨?_, ?_⟩
  · constructor
    case distinct => exact fun j k _ _ e => Term.const.inj e
    case only =>
      intro f c hc hu
      cases f with
      | sym s =>
        by_cases h1 : s = "+"
        · subst h1; exact ⟨_, by simp [numSyms], rfl⟩
        · by_cases h2 : s = "p"
          · subst h2; simp [computable] at hc
          · exact (no s h2 h1 hu).elim
      | _ => simp [computable] at hc
    case int =>
      intro p hp hu i j ds
      simp only [intOps, List.mem_cons, List.not_mem_nil, or_false] at hp
      rcases hp with rfl | rfl | rfl | rfl | rfl | rfl <;> first | rfl | exact (no _ (by decide) (by decide) hu).elim
    case dbl =>
      intro p hp hu a b x y z ds hm hz
      simp only [ratOps, List.mem_cons, List.not_mem_nil, or_false] at hp
      rcases hp with rfl | rfl | rfl | rfl | rfl | rfl <;> first | exact (no _ (by decide) (by decide) hu).elim | skip
      obtain ⟨h1, h2, h3⟩ := hm
      simp only at hz
      cases a <;> cases b <;> first
        | exact (h3 _ _ ⟨rfl, rfl⟩).elim
        | (show (match numD _, numD _ with
            | some (.fin x), some (.fin y) => (match rnd (x + y) with
              | .fin z => Term.const (.dbl (.fin z))
              | _ => _)
            | _, _ => _) = Term.const _
           rw [h1, h2]
           simp only
           rw [hz])
        | simp [numD] at h1
    case toI =>
      intro p hp hu
      simp only [toInts, List.mem_cons, List.not_mem_nil, or_false] at hp
      rcases hp with rfl | rfl | rfl | rfl | rfl <;> exact (no _ (by decide) (by decide) hu).elim
    case toD =>
      intro p hp hu
      simp only [toInts, List.mem_cons, List.not_mem_nil, or_false] at hp
      rcases hp with rfl | rfl | rfl | rfl | rfl <;> exact (no _ (by decide) (by decide) hu).elim
    all_goals exact fun hu => (no _ (by decide) (by decide) hu).elim
  · intro it hm hc
    simp only [sumItems, List.mem_cons, List.not_mem_nil, or_false] at hm
    rcases hm with rfl | rfl
    · intro τ hτ
      have t1 := hτ ⟨3, "1"⟩ rfl
      have t2 := hτ ⟨3, "2"⟩ rfl
      have e1 : symbolOf ⟨3, "1"⟩ = .int 1 := by decide +kernel
      have e2 : symbolOf ⟨3, "2"⟩ = .int 2 := by decide +kernel
      rw [e1] at t1
      rw [e2] at t2
      simp only [FInt.holds, FInt.atom, FInt.evL, FInt.ev, t1, t2]
      exact .inr (.inl ⟨rfl, rfl⟩)
    · cases hc

/-! ### A wrong proof -/

/-- the axiom `exists X: -$substr("sk",X)` -/
def skItems : List Item := [⟨false, .ex [uri "X"] (.neg (.at (.app (uri "$substr") [.nm ⟨207, "sk"⟩, .nm (uri "X")])))⟩]

/-- the clause `-$substr("sk",$sk1)` -/
def skInput : List (List ALit) := [[⟨0, true, ap "$substr" [.const (.str "sk"), .const (.sym "$sk1")]⟩]]

/-- Finding: `$substr` is computed for any two symbols from their names, also for Skolem constants
(wr_compute_fun_str, Reasoner/build.c:1442-1485, WG_URITYPE).  So the satisfiable axiom
`exists X: -$substr("sk",X)` is refuted: the Skolem constant is called `$sk1` and contains "sk". -/
theorem C58_skolem_name_false_proof : ∃ fcs, Clausifies exVar true 9 0 0 skItems fcs ∧
    (∀ cl ∈ skInput, ∃ fc ∈ fcs, ∃ ls, buildCl exVar fc = some ls ∧ NewCl ls cl) ∧
    (∃ s, Run calcCfg ShortActive skInput s ∧ s.refuted = true) ∧
    ∃ M : FO, Computes true (fun _ => True) M ∧ (∀ a b, M.pr (.sym "=") [a, b] ↔ a = b) ∧ M.pr (.sym "$true") [] ∧ ¬ M.pr (.sym "$false") [] ∧
      (∀ a b, M.pr (.sym "$substr") [M.cst (.str a), M.cst (.str b)] ↔ isSub a.toList b.toList = true) ∧
      ∀ it ∈ skItems, it.conj = false ∧ Sat exVar M.str it.frm := by
  have l2 : ∀ t, Clausify.flat (.neg (.at t)) = some [.lits [.neg (.at t)]] := fun t => by simp [Clausify.flat, flatOr]
  refine ⟨_, .one (g := .neg (.at (.app (uri "$substr") [.nm ⟨207, "sk"⟩, .nm (uri "$sk1")]))) (by rfl) (l2 _) .nil, ?_, ?_, calcFO,
    C58_structure_exists.1, C58_structure_exists.2.1, C58_structure_exists.2.2.1, C58_structure_exists.2.2.2, ?_, ?_⟩
  · intro cl h
    simp only [skInput, List.mem_cons, List.not_mem_nil, or_false] at h
    subst h
    exact ⟨_, .head _, _, by rfl, by rfl, by simp [Sep]⟩
  · have r0 : Run calcCfg ShortActive skInput _ := .start (by simp [ShortActive, PState.init])
    have r1 := Run.step r0 (.pick (cl := [⟨0, true, ap "$substr" [.const (.str "sk"), .const (.sym "$sk1")]⟩]) (.head _) (List.Perm.refl _)) (by simp [ShortActive, PState.init])
    have r2 := Run.step r1 (.simplifyEmpty (rw' := fun _ => .ok (⟨1, true, .const aTrue⟩, true)) (m := fun _ => 0) rfl (cutsNone _) (by
      intro x hx y w e
      simp only [List.mem_singleton] at hx
      subst hx
      simp only [Out.ok.injEq, Prod.mk.injEq] at e
      obtain ⟨rfl, rfl⟩ := e
      exact ⟨⟨9, _, rfl⟩, .inr (by simp)⟩) rfl) (by simp [ShortActive, PState.init])
    exact ⟨_, r2, rfl⟩
  · intro a b
    refine (calc_pr (by decide) (by decide) _).trans ?_
    show Res.bool (isSub a.toList b.toList) = Res.bool true ↔ _
    exact ⟨fun h => bool_inj h, fun h => by rw [h]⟩
  · intro it hm
    simp only [skItems, List.mem_cons, List.not_mem_nil, or_false] at hm
    subst hm
    refine ⟨rfl, fun τ hτ => ?_⟩
    let τ' : Nm → calcFO.D := fun n => if n = uri "X" then calcFO.cst (.str "a") else τ n
    have e1 : τ' ⟨207, "sk"⟩ = calcFO.cst (.str "sk") := (if_neg (by decide)).trans (hτ ⟨207, "sk"⟩ (by decide))
    have e2 : τ' (uri "X") = calcFO.cst (.str "a") := if_pos rfl
    refine ⟨τ', fun n hn => if_neg (by simpa using hn), ?_⟩
    simp only [FInt.holds, FInt.atom, FInt.evL, FInt.ev, e1, e2]
    intro h
    have h := (calc_pr (f := .sym "$substr") (by decide) (by decide) _).1 h
    exact absurd h (by decide)

end Gkc.Props.Calc
