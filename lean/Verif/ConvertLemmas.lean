import Verif.ConvertSpec
import Verif.JsonLemmas
import Mathlib.Data.List.Forall2
/-
Lemmas for C60: the text is JSON, its value is a formula of JSON-LD-LOGIC, and that formula means the same.
-/
namespace Gkc.Conv
open Gkc.Conv.Spec
open Gkc.Json (J G StrRaw NumOk PlainChar IsWs IsDig)
open Gkc.Js (Jv anon)
open Gkc.Js.Spec (Tm Fm render renderL Name Plain qvar capital Str reserved)
open Gkc.Clausify (Nm uri)

/-! ### The formula of JSON-LD-LOGIC -/

mutual
/-- the term -/
def toT (sc : List String) : T → Tm
  | .var x => .name (if x ∈ sc then x else "?:" ++ x)
  | .name _ s => .name s
  | .obj s => .name ("#:" ++ s)
  | .num t => .num 3 t
  | .app _ f as => .app f (toTL sc as)
  | .arith op a b => .app op [toT sc a, toT sc b]
/-- the terms -/
def toTL (sc : List String) : List T → List Tm
  | [] => []
  | a :: as => toT sc a :: toTL sc as
end

/-- the formula -/
def toF (sc : List String) : F → Fm
  | .atom _ p as => .atom p (toTL sc as)
  | .prop _ p => .prop p
  | .const b => .const b
  | .eq a b => .eq "=" false (toT sc a) (toT sc b)
  | .neq a b => .neg "~" (.eq "=" false (toT sc a) (toT sc b))
  | .neg f => match f with
    | .atom _ p as => .natom '-' p (toTL sc as)
    | f => .neg "~" (toF sc f)
  | .bin op a b => match op with
    | .and => .many "&" false [toF sc a, toF sc b]
    | .or => .many "|" false [toF sc a, toF sc b]
    | .imp => .infx "=>" (toF sc a) (toF sc b)
    | .rimp => .infx "=>" (toF sc b) (toF sc a)
    | .eqv => .infx "<=>" (toF sc a) (toF sc b)
    | .xor => .neg "~" (.infx "<=>" (toF sc a) (toF sc b))
    | .nor => .neg "~" (.many "|" false [toF sc a, toF sc b])
    | .nand => .neg "~" (.many "&" false [toF sc a, toF sc b])
  | .all vs f => .quant "forall" vs (toF (vs ++ sc) f)
  | .ex vs f => .quant "exists" vs (toF (vs ++ sc) f)

/-! ### Strings -/

theorem esc_raw {s : List Char} (h : ∀ c ∈ s, PlainChar c) : StrRaw (esc s) s := by
  induction s with
  | nil => exact .nil
  | cons c s ih =>
    have h1 := h c (by simp)
    have h2 := ih fun c hc => h c (by simp [hc])
    simp only [esc]
    split
    · rename_i e
      subst e
      exact .esc (by decide) h2
    · rename_i e
      exact .plain e h1.1 h1.2 h2

theorem dquoted_g {neg uniq : Bool} {s : String} (h : ∀ c ∈ s.toList, PlainChar c) :
    G (dquoted neg uniq s) (.val (.str ((if neg then ['-'] else []) ++ (if uniq then ['#', ':'] else []) ++ s.toList))) := by
  refine .str (Json.raw_append ?_ (esc_raw h))
  cases neg <;> cases uniq <;> exact Json.letters_raw (by decide)

theorem ofList_toList (s : String) : String.ofList s.toList = s := by simp

theorem begins_no {p s : String} (h : ¬ p.toList <+: s.toList) : begins p s = false := by
  rw [begins]
  cases e : p.toList.isPrefixOf s.toList with
  | false => rfl
  | true => exact absurd (List.isPrefixOf_iff_prefix.1 e) h

theorem varLike_no {s : String} (h : capital s = false ∧ s.toList.head? ≠ some '?') : varLike s = false := by
  obtain ⟨h1, h2⟩ := h
  simp only [capital] at h1
  simp only [varLike]
  split
  · rename_i c cs e
    rw [e] at h1 h2
    simp at h1 h2
    simp [h2]
    exact fun h => h1 h
  · rfl

theorem varLike_yes {x : String} (h : capital x = true) : varLike x = true := by
  simp only [capital] at h
  simp only [varLike]
  split at h <;> simp_all

/-! ### Variables -/

theorem var_cons {x : String} (h : capital x = true) : ∃ c cs, x.toList = c :: cs ∧ 'A' ≤ c ∧ c ≤ 'Z' := by
  simp only [capital] at h
  split at h
  · rename_i c cs e
    exact ⟨c, cs, e, by simpa using h⟩
  · cases h

theorem cap_ne {x y : String} (h : capital x = true) (h' : capital y = false) : x ≠ y := by
  rintro rfl
  rw [h] at h'
  cases h'

theorem cap_qm (x : String) : capital ("?:" ++ x) = false := by
  simp [capital, String.toList_append]

theorem cap_hash (x : String) : capital ("#:" ++ x) = false := by
  simp [capital, String.toList_append]

theorem cap_name {x : String} (h : capital x = true) : Name x := by
  refine ⟨?_, fun hm => ?_, ?_, ?_⟩
  · exact cap_ne h (by decide)
  · have : ∀ s ∈ reserved, capital s = false := by decide +kernel
    rw [this x hm] at h
    cases h
  · exact cap_ne h (by decide)
  · exact cap_ne h (by decide)

theorem qm_toList (x : String) : ("?:" ++ x).toList = '?' :: ':' :: x.toList := by simp [String.toList_append]

theorem hash_toList (x : String) : ("#:" ++ x).toList = '#' :: ':' :: x.toList := by simp [String.toList_append]

theorem qvar_qm {x : String} (h : capital x = true) : qvar ("?:" ++ x) = true := by
  obtain ⟨c, cs, e, _⟩ := var_cons h
  simp [qvar, e, qm_toList]

theorem qvar_hash (x : String) : qvar ("#:" ++ x) = false := by
  simp [qvar, hash_toList]

theorem qvar_cap {x : String} (h : capital x = true) : qvar x = false := by
  obtain ⟨c, cs, e, h1, h2⟩ := var_cons h
  simp [qvar, e]
  intro hc
  subst hc
  exact absurd h1 (by decide)

theorem qm_inj {x y : String} (h : "?:" ++ x = "?:" ++ y) : x = y := by
  have := congrArg String.toList h
  rw [qm_toList, qm_toList] at this
  exact String.toList_injective (by simpa using this)

theorem name_qm {x : String} (h : capital x = true) : Name ("?:" ++ x) := by
  obtain ⟨c, cs, e, _⟩ := var_cons h
  have hne : ∀ s : String, s.toList.take 2 ≠ ['?', ':'] ∨ s.toList.length ≤ 2 → "?:" ++ x ≠ s := by
    rintro s hs rfl
    rw [qm_toList, e] at hs
    simp at hs
  refine ⟨hne _ (by decide), fun hm => ?_, hne _ (by decide), hne _ (by decide)⟩
  have : ∀ s ∈ reserved, s.toList.take 2 ≠ ['?', ':'] ∨ s.toList.length ≤ 2 := by decide +kernel
  exact hne _ (this _ hm) rfl

theorem name_hash (x : String) : Name ("#:" ++ x) := by
  have hne : ∀ s : String, s.toList.take 2 ≠ ['#', ':'] → "#:" ++ x ≠ s := by
    rintro s hs rfl
    rw [hash_toList] at hs
    simp at hs
  refine ⟨hne _ (by decide), fun hm => ?_, hne _ (by decide), hne _ (by decide)⟩
  have : ∀ s ∈ reserved, s.toList.take 2 ≠ ['#', ':'] := by decide +kernel
  exact hne _ (this _ hm) rfl

theorem alnum_plain {c : Char} (h : c.isAlphanum = true ∨ c = '_') : PlainChar c ∧ c ≠ '"' := by
  have h32 : 32 ≤ c.toNat ∧ c ≠ '\\' ∧ c ≠ '"' := by
    rcases h with h | rfl
    · refine ⟨?_, ?_, ?_⟩
      · simp only [Char.isAlphanum, Char.isAlpha, Char.isUpper, Char.isLower, Char.isDigit, Bool.or_eq_true, Bool.and_eq_true, decide_eq_true_eq] at h
        simp only [UInt32.le_iff_toNat_le] at h
        have : c.toNat = c.val.toNat := rfl
        rw [this]
        have e1 : (65 : UInt32).toNat = 65 := rfl
        have e2 : (97 : UInt32).toNat = 97 := rfl
        have e3 : (48 : UInt32).toNat = 48 := rfl
        rcases h with (h | h) | h
        · have := h.1; simp at this; omega
        · have := h.1; simp at this; omega
        · have := h.1; simp at this; omega
      · rintro rfl; exact absurd h (by decide)
      · rintro rfl; exact absurd h (by decide)
    · decide
  exact ⟨⟨h32.2.1, h32.1⟩, h32.2.2⟩

theorem var_text {x : String} (h : Var x) : Text x := by
  obtain ⟨h1, h2⟩ := h
  obtain ⟨c, cs, e, hA, hZ⟩ := var_cons h1
  have hc : c ≠ '$' := by rintro rfl; exact absurd hA (by decide)
  refine ⟨fun c hc => (alnum_plain (h2 c hc)).1, ?_, ?_, ?_⟩
  · rw [e]; intro hp
    have := (List.cons_prefix_cons.1 hp).1
    exact hc this.symm
  · rw [e]; intro hp
    have := (List.cons_prefix_cons.1 hp).1
    exact hc this.symm
  · exact cap_ne h1 (by decide)

/-! ### Atoms -/

theorem atom_g {tf neg : Bool} {bd : List Lst} {s : String} {s2 : Option String} (h : Text s)
    (hv : ¬ (tf = true ∧ s2 = none ∧ varLike s = true ∧ bound bd s = false)) :
    G (atomText tf neg bd ⟨7, s, s2⟩) (.val (.str ((if neg then ['-'] else []) ++ (if s2 = some "#" then ['#', ':'] else []) ++ s.toList))) := by
  obtain ⟨h1, h2, h3, h4⟩ := h
  have hv' : (tf && s2.isNone && varLike s && !bound bd s) = false := by
    cases tf <;> cases s2 <;> cases e : varLike s <;> cases e' : bound bd s <;> simp_all
  simp only [atomText, begins_no h2, begins_no h3, h4, hv']
  simp only [Bool.false_eq_true, if_false, Nat.reduceEqDiff, or_self]
  have := dquoted_g (neg := neg) (uniq := s2 == some "#") h1
  simpa using this

theorem free_g {bd : List Lst} {x : String} (h : Var x) (hb : bound bd x = false) :
    G (atomText true false bd ⟨7, x, none⟩) (.val (.str ("?:" ++ x).toList)) := by
  obtain ⟨h1, h2, h3, h4⟩ := var_text h
  simp only [atomText, begins_no h2, begins_no h3, h4, varLike_yes h.1, hb]
  simp only [Bool.false_eq_true, if_false, Nat.reduceEqDiff, or_self]
  have : G ('"' :: (('?' :: ':' :: x.toList) ++ ['"'])) (.val (.str ('?' :: ':' :: x.toList))) := by
    refine .str (Json.raw_plain ?_)
    intro c hc
    simp only [List.mem_cons] at hc
    rcases hc with rfl | rfl | hc
    · exact ⟨⟨by decide, by decide⟩, by decide⟩
    · exact ⟨⟨by decide, by decide⟩, by decide⟩
    · exact alnum_plain (h.2 c hc)
  rw [qm_toList]
  simpa using this

theorem num_ok {t : String} (h : Num t) : NumOk t.toList ∧ intText t.toList = true := by
  obtain ⟨h1, h2, h3, h4⟩ := h
  refine ⟨⟨[], t.toList, [], [], by simp, .inl rfl, ⟨h1, h2, h3⟩, .inl rfl, .inl rfl⟩, ?_⟩
  simp only [intText, Bool.and_eq_true, decide_eq_true_eq, List.all_eq_true, Bool.or_eq_true, bne_iff_ne, beq_iff_eq]
  refine ⟨⟨⟨h1, h2⟩, ?_⟩, h4⟩
  by_cases e : t.toList.head? = some '0'
  · exact .inr (by rw [h3 e]; rfl)
  · exact .inl e

/-! ### Terms -/

theorem commas_cons {x : List Char} {l : List (List Char)} (h : l ≠ []) : commas (x :: l) = x ++ ',' :: commas l := by
  cases l with
  | nil => exact absurd rfl h
  | cons y r => rfl

/-- the bound variables of the printer are those quantified there -/
def Bd (bd : List Lst) (sc : List String) : Prop := ∀ x, bound bd x = decide (x ∈ sc)

theorem sym_g {neg : Bool} {bd : List Lst} {sc : List String} (q : Bool) {s : String} (h : Sym sc q s) :
    G (sub true neg bd (sym q s)) (.val (.str ((if neg then ['-'] else []) ++ s.toList))) := by
  have := atom_g (tf := true) (neg := neg) (bd := bd) (s := s) (s2 := if q then some "c" else none) h.1 (by
    rintro ⟨-, h2, h3, -⟩
    cases q with
    | true => cases h2
    | false => rw [varLike_no (h.2.2.2.2.2.1 rfl)] at h3; cases h3)
  cases q with
  | true => simpa [sub, sym] using this
  | false => simpa [sub, sym] using this

theorem jv_str (s : String) : jv (.str s.toList) = some (Js.Spec.str s) := by
  simp [jv, Js.Spec.str]

mutual
theorem t_json {bd : List Lst} {sc : List String} (hb : Bd bd sc) : ∀ t : T, t.WF sc →
    ∃ j, G (sub true false bd t.tree) (.val j) ∧ jv j = some (render (toT sc t))
  | .var x, h => by
    simp only [T.WF] at h
    simp only [T.tree, toT, render]
    by_cases hx : x ∈ sc
    · have hbx : bound bd x = true := by rw [hb]; simpa using hx
      have := atom_g (tf := true) (neg := false) (bd := bd) (s2 := none) (var_text h) (by simp [hbx])
      refine ⟨.str x.toList, by simpa [sub, sym] using this, ?_⟩
      rw [if_pos hx]
      exact jv_str x
    · have hbx : bound bd x = false := by rw [hb]; simpa using hx
      refine ⟨.str ("?:" ++ x).toList, by simpa [sub, sym] using free_g h hbx, ?_⟩
      rw [if_neg hx]
      exact jv_str _
  | .name q s, h => by
    simp only [T.WF] at h
    refine ⟨.str s.toList, by simpa [T.tree] using sym_g (neg := false) (bd := bd) q h, ?_⟩
    simp only [toT, render]
    exact jv_str s
  | .obj s, h => by
    simp only [T.WF] at h
    have := atom_g (tf := true) (neg := false) (bd := bd) (s2 := some "#") h (by simp)
    refine ⟨.str ("#:" ++ s).toList, by rw [hash_toList]; simpa [T.tree, sub] using this, ?_⟩
    simp only [toT, render]
    exact jv_str _
  | .num t, h => by
    simp only [T.WF] at h
    obtain ⟨h1, h2⟩ := num_ok h
    refine ⟨.num t.toList, by simpa [T.tree, sub, atomText] using G.num h1, ?_⟩
    simp [jv, h2, toT, render]
  | .app q f as, h => by
    simp only [T.WF] at h
    obtain ⟨hf, hne, has⟩ := h
    obtain ⟨js, g1, g2⟩ := tl_json hb as hne has
    have hn : subL true false bd (trees as) ≠ [] := by
      cases as with
      | nil => exact absurd rfl hne
      | cons a r => simp [trees, subL]
    refine ⟨.arr (.str f.toList :: js), ?_, ?_⟩
    · have := G.arr (G.more (sym_g (neg := false) (bd := bd) q hf) g1)
      simpa [T.tree, sub, plainText, commas_cons hn] using this
    · simp [jv, g2, toT, render, Js.Spec.str]
  | .arith op a b, h => by
    simp only [T.WF] at h
    obtain ⟨hop, ha, hb'⟩ := h
    obtain ⟨ja, a1, a2⟩ := t_json hb a ha
    obtain ⟨jb, b1, b2⟩ := t_json hb b hb'
    refine ⟨.arr [.str op.toList, ja, jb], ?_, ?_⟩
    · have hw : G (sub true false bd (word op)) (.val (.str op.toList)) := by
        have ht : op ∈ ["+", "-", "*"] → sub true false bd (word op) = '"' :: (op.toList ++ ['"']) ∧ StrRaw op.toList op.toList := by
          intro hop
          simp only [List.mem_cons, List.not_mem_nil, or_false] at hop
          rcases hop with rfl | rfl | rfl
          · exact ⟨by simp [sub, word, atomText, begins, varLike, dquoted, esc], Json.letters_raw (by decide)⟩
          · exact ⟨by simp [sub, word, atomText, begins, varLike, dquoted, esc], Json.letters_raw (by decide)⟩
          · exact ⟨by simp [sub, word, atomText, begins, varLike, dquoted, esc], Json.letters_raw (by decide)⟩
        obtain ⟨e, r⟩ := ht hop
        rw [e]
        exact .str r
      have := G.arr (G.more hw (G.more a1 (G.one b1)))
      simpa [T.tree, sub, subL, plainText, commas] using this
    · simp [jv, jvL, a2, b2, toT, render, renderL, Js.Spec.str]
theorem tl_json {bd : List Lst} {sc : List String} (hb : Bd bd sc) : ∀ as : List T, as ≠ [] → WFL sc as →
    ∃ js, G (commas (subL true false bd (trees as))) (.elems js) ∧ jvL js = some (renderL (toTL sc as))
  | [], h, _ => absurd rfl h
  | [a], _, h => by
    simp only [WFL] at h
    obtain ⟨j, g, e⟩ := t_json hb a h.1
    exact ⟨[j], by simpa [trees, subL, commas] using G.one g, by simp [jvL, e, toTL, renderL]⟩
  | a :: b :: r, _, h => by
    simp only [WFL] at h
    obtain ⟨j, g, e⟩ := t_json hb a h.1
    obtain ⟨js, g', e'⟩ := tl_json hb (b :: r) (by simp) (by simpa only [WFL] using h.2)
    refine ⟨j :: js, ?_, by rw [jvL, e, e']; rfl⟩
    rw [trees, subL, commas_cons (by simp [trees, subL])]
    exact .more g g'
end

/-! ### Formulas -/

theorem infix_g {w : String} {a b : List Char} {ja jb : J} {r : List (List Char)} (hw : StrRaw w.toList w.toList) (ha : G a (.val ja)) (hb : G b (.val jb)) :
    G (infixText w (a :: b :: r)) (.val (.arr [ja, .str w.toList, jb])) := by
  have := G.arr (G.more ha (G.more (.wsl (.inl rfl) (.str hw)) (G.one (.wsl (.inl rfl) hb))))
  simpa [infixText, pick] using this

theorem not_g {a : List Char} {ja : J} (ha : G a (.val ja)) :
    G ("[\"~\", ".toList ++ a ++ [']']) (.val (.arr [.str ['~'], ja])) := by
  have := G.arr (G.more (G.str (Json.letters_raw (s := ['~']) (by decide))) (G.one (.wsl (.inl rfl) ha)))
  simpa using this

theorem subV_g {sc : List String} : ∀ (vs : List String) (bd : List Lst), Bd bd sc → vs ≠ [] → (∀ x ∈ vs, Var x) →
    G (commas (subV bd (vs.map (sym false))).1) (.elems (vs.map fun x => .str x.toList)) := by
  have key : ∀ (vs : List String) (bd : List Lst), vs ≠ [] → (∀ x ∈ vs, Var x) →
      G (commas (subV bd (vs.map (sym false))).1) (.elems (vs.map fun x => .str x.toList)) := by
    intro vs
    induction vs with
    | nil => intro bd h; exact absurd rfl h
    | cons x r ih =>
      intro bd _ hv
      have hx := hv x (by simp)
      have gx : G (sub true false (sym false x :: bd) (sym false x)) (.val (.str x.toList)) := by
        have := atom_g (tf := true) (neg := false) (bd := sym false x :: bd) (s2 := none) (var_text hx) (by simp [bound, sym])
        simpa [sub, sym] using this
      cases r with
      | nil => simpa [subV, commas] using G.one gx
      | cons y r =>
        have := G.more gx (ih (sym false x :: bd) (by simp) fun z hz => hv z (List.mem_cons_of_mem _ hz))
        rw [List.map_cons, List.map_cons, subV]
        rw [commas_cons (by simp [subV])]
        exact this
  exact fun vs bd _ => key vs bd

theorem subV_bd : ∀ (vs : List String) (bd : List Lst) (sc : List String), Bd bd sc →
    Bd (subV bd (vs.map (sym false))).2 (vs ++ sc)
  | [], bd, sc, h => by simpa [subV] using h
  | x :: r, bd, sc, h => by
    have h' : Bd (sym false x :: bd) (x :: sc) := by
      intro y
      have := h y
      simp only [bound] at this
      simp only [bound, List.any_cons, this, sym]
      by_cases e : x = y
      · simp [e]
      · simp [e, Ne.symm e]
    have := subV_bd r _ _ h'
    intro y
    have hy := this y
    simp only [List.map_cons, subV]
    rw [hy]
    simp only [List.mem_append, List.mem_cons, decide_eq_decide, List.cons_append]
    constructor
    · rintro (h | h | h) <;> simp_all
    · rintro (h | h | h) <;> simp_all

theorem quant_g {w : String} {vs b : List Char} {js : List J} {jb : J} (hw : StrRaw w.toList w.toList) (hv : G vs (.elems js)) (hb : G b (.val jb)) :
    G ('[' :: (('"' :: (w.toList ++ ['"'])) ++ ", [".toList ++ vs ++ "], ".toList ++ b ++ [']'])) (.val (.arr [.str w.toList, .arr js, jb])) := by
  have := G.arr (G.more (.str hw) (G.more (.wsl (.inl rfl) (.arr hv)) (G.one (.wsl (.inl rfl) hb))))
  simpa using this

theorem jvL_strs : ∀ vs : List String, jvL (vs.map fun x => .str x.toList) = some (vs.map Js.Spec.str)
  | [] => rfl
  | x :: r => by simp [jvL, jv_str, jvL_strs r]

theorem jv_strs {vs : List String} (h : vs ≠ []) : jv (.arr (vs.map fun x => .str x.toList)) = some (.list (vs.map Js.Spec.str)) := by
  cases vs with
  | nil => exact absurd rfl h
  | cons x r => simp [jv, jvL_strs r, Js.Spec.str]

theorem isConn_T (t : T) : isConnective t.tree = false := by
  cases t <;> rfl

theorem isConn_all : ∀ as : List T, ((trees as).all fun x => !isConnective x) = true
  | [] => rfl
  | a :: as => by simp [trees, isConn_T, isConn_all as]

theorem atomF_json {neg : Bool} {bd : List Lst} {sc : List String} (hb : Bd bd sc) {q : Bool} {p : String} {as : List T}
    (hp : Sym sc q p) (hne : as ≠ []) (has : WFL sc as) :
    ∃ j, G (sub false neg bd (.list (sym q p :: trees as))) (.val j) ∧
      jv j = some (.list (Js.Spec.str (String.ofList ((if neg then ['-'] else []) ++ p.toList)) :: renderL (toTL sc as))) := by
  obtain ⟨js, g1, g2⟩ := tl_json hb as hne has
  have hn : subL true false bd (trees as) ≠ [] := by
    cases as with
    | nil => exact absurd rfl hne
    | cons a r => simp [trees, subL]
  have heq : isEq (sym q p) = false := by
    have : p ≠ "=" := by
      rintro rfl
      exact hp.2.1.2.1 (by decide)
    simp [isEq, sym, this]
  have hc : isConnective (sym q p) = false := rfl
  have hl : isLog "@" (sym q p) = false := rfl
  refine ⟨.arr (.str ((if neg then ['-'] else []) ++ p.toList) :: js), ?_, ?_⟩
  · have := G.arr (G.more (sym_g (neg := neg) (bd := bd) q hp) g1)
    rw [sub]
    simp only [heq, hc, hl]
    simpa [plainText, commas_cons hn] using this
  · simp [jv, g2, Js.Spec.str]

theorem word_ne {s w : String} (h : s ≠ w) : isLog w (word s) = false := by
  simp [isLog, word, h]

theorem neg_other {bd : List Lst} {x : Lst} (h : listIsTerm x = false) :
    sub false false bd (.list [word "not", x]) = "[\"~\", ".toList ++ sub false false bd x ++ [']'] := by
  rw [sub]
  simp [isEq, isConnective, isLog, word, h, subL, pick]

theorem neg_term {bd : List Lst} {x : Lst} (h : listIsTerm x = true) :
    sub false false bd (.list [word "not", x]) = sub false true bd x := by
  rw [sub]
  simp [isEq, isConnective, isLog, word, h, subL, pick]

theorem sub_eq {bd : List Lst} {a b : Lst} :
    sub false false bd (.list [word "=", a, b]) = infixText "=" [sub true false bd a, sub true false bd b] := by
  rw [sub]
  simp [isEq, word, subL]

theorem sub_and {bd : List Lst} {a b : Lst} :
    sub false false bd (.list [word "and", a, b]) = infixText "&" [sub false false bd a, sub false false bd b] := by
  rw [sub]
  simp [isEq, isConnective, isLog, word, subL]

theorem sub_or {bd : List Lst} {a b : Lst} :
    sub false false bd (.list [word "or", a, b]) = infixText "|" [sub false false bd a, sub false false bd b] := by
  rw [sub]
  simp [isEq, isConnective, isLog, word, subL]

theorem sub_imp {bd : List Lst} {a b : Lst} :
    sub false false bd (.list [word "imp", a, b]) = infixText "=>" [sub false false bd a, sub false false bd b] := by
  rw [sub]
  simp [isEq, isConnective, isLog, word, subL]

theorem sub_eqv {bd : List Lst} {a b : Lst} :
    sub false false bd (.list [word "eqv", a, b]) = infixText "<=>" [sub false false bd a, sub false false bd b] := by
  rw [sub]
  simp [isEq, isConnective, isLog, word, subL]

theorem sub_all {bd : List Lst} {vs : List Lst} {b : Lst} :
    sub false false bd (.list [word "all", .list vs, b]) =
      '[' :: (('"' :: ("forall".toList ++ ['"'])) ++ ", [".toList ++ commas (subV bd vs).1 ++ "], ".toList ++ sub false false (subV bd vs).2 b ++ [']']) := by
  rw [sub]
  simp [isEq, isConnective, isLog, word, subL, subVs, pick]

theorem sub_ex {bd : List Lst} {vs : List Lst} {b : Lst} :
    sub false false bd (.list [word "exists", .list vs, b]) =
      '[' :: (('"' :: ("exists".toList ++ ['"'])) ++ ", [".toList ++ commas (subV bd vs).1 ++ "], ".toList ++ sub false false (subV bd vs).2 b ++ [']']) := by
  rw [sub]
  simp [isEq, isConnective, isLog, word, subL, subVs, pick]

theorem not_jv {ja : J} {x : Jv} (h : jv ja = some x) : jv (.arr [.str ['~'], ja]) = some (.list [Js.Spec.str "~", x]) := by
  have := jv_str "~"
  simp only [show "~".toList = ['~'] from rfl] at this
  simp [jv, jvL, h, Js.Spec.str]

theorem infix_jv {w : String} {ja jb : J} {x y : Jv} (h : jv ja = some x) (h' : jv jb = some y) :
    jv (.arr [ja, .str w.toList, jb]) = some (.list [x, Js.Spec.str w, y]) := by
  simp [jv, jvL, h, h', Js.Spec.str]

theorem f_json : ∀ (f : F) {bd : List Lst} {sc : List String}, Bd bd sc → f.WF sc →
    ∃ j, G (sub false false bd f.tree) (.val j) ∧ jv j = some (toF sc f).json := by
  intro f
  induction f with
  | atom q p as =>
    intro bd sc hb h
    obtain ⟨⟨hp, -, -⟩, hne, has⟩ := h
    obtain ⟨j, g, e⟩ := atomF_json (neg := false) hb hp hne has
    exact ⟨j, g, by simpa [toF, Fm.json] using e⟩
  | prop q p =>
    intro bd sc hb h
    obtain ⟨hp, -, -⟩ := h
    have := atom_g (tf := false) (neg := false) (bd := bd) (s2 := if q then some "c" else none) hp.1 (by simp)
    refine ⟨.str p.toList, ?_, jv_str p⟩
    cases q <;> simpa [F.tree, sym, sub] using this
  | const b =>
    intro bd sc hb h
    cases b with
    | true => exact ⟨.tru, by simpa [F.tree, sym, sub, atomText, begins] using G.tru, rfl⟩
    | false => exact ⟨.fls, by simpa [F.tree, sym, sub, atomText, begins] using G.fls, rfl⟩
  | eq a b =>
    intro bd sc hb h
    obtain ⟨ja, a1, a2⟩ := t_json hb a h.1
    obtain ⟨jb, b1, b2⟩ := t_json hb b h.2
    refine ⟨_, ?_, infix_jv a2 b2 (w := "=")⟩
    rw [F.tree, sub_eq]
    exact infix_g (Json.letters_raw (by decide)) a1 b1
  | neq a b =>
    intro bd sc hb h
    obtain ⟨ja, a1, a2⟩ := t_json hb a h.1
    obtain ⟨jb, b1, b2⟩ := t_json hb b h.2
    refine ⟨_, ?_, not_jv (infix_jv a2 b2 (w := "="))⟩
    rw [F.tree, neg_other rfl, sub_eq]
    exact not_g (infix_g (Json.letters_raw (by decide)) a1 b1)
  | neg f ih =>
    intro bd sc hb h
    obtain ⟨h, hs⟩ := h
    by_cases ha : ∃ q p as, f = .atom q p as
    · obtain ⟨q, p, as, rfl⟩ := ha
      obtain ⟨⟨hp, -, -⟩, hne, has⟩ := h
      obtain ⟨j, g, e⟩ := atomF_json (neg := true) hb hp hne has
      refine ⟨j, ?_, by simpa [toF, Fm.json] using e⟩
      rw [F.tree, neg_term]
      · exact g
      · simp only [F.tree, listIsTerm, sym, isConn_all]
        rfl
    · obtain ⟨j, g, e⟩ := ih hb h
      refine ⟨.arr [.str ['~'], j], ?_, ?_⟩
      · rw [F.tree, neg_other]
        · exact not_g g
        · cases f with
          | atom q p as => exact absurd ⟨q, p, as, rfl⟩ ha
          | bin op a b => cases op <;> rfl
          | _ => rfl
      · rw [not_jv e]
        cases f with
        | atom q p as => exact absurd ⟨q, p, as, rfl⟩ ha
        | _ => rfl
  | bin op a b iha ihb =>
    intro bd sc hb h
    obtain ⟨ja, a1, a2⟩ := iha hb h.1
    obtain ⟨jb, b1, b2⟩ := ihb hb h.2
    cases op with
    | and => exact ⟨_, by rw [F.tree, sub_and]; exact infix_g (Json.letters_raw (by decide)) a1 b1, infix_jv a2 b2 (w := "&")⟩
    | or => exact ⟨_, by rw [F.tree, sub_or]; exact infix_g (Json.letters_raw (by decide)) a1 b1, infix_jv a2 b2 (w := "|")⟩
    | imp => exact ⟨_, by rw [F.tree, sub_imp]; exact infix_g (Json.letters_raw (by decide)) a1 b1, infix_jv a2 b2 (w := "=>")⟩
    | rimp => exact ⟨_, by rw [F.tree, sub_imp]; exact infix_g (Json.letters_raw (by decide)) b1 a1, infix_jv b2 a2 (w := "=>")⟩
    | eqv => exact ⟨_, by rw [F.tree, sub_eqv]; exact infix_g (Json.letters_raw (by decide)) a1 b1, infix_jv a2 b2 (w := "<=>")⟩
    | xor => exact ⟨_, by rw [F.tree, neg_other rfl, sub_eqv]; exact not_g (infix_g (Json.letters_raw (by decide)) a1 b1), not_jv (infix_jv a2 b2 (w := "<=>"))⟩
    | nor => exact ⟨_, by rw [F.tree, neg_other rfl, sub_or]; exact not_g (infix_g (Json.letters_raw (by decide)) a1 b1), not_jv (infix_jv a2 b2 (w := "|"))⟩
    | nand => exact ⟨_, by rw [F.tree, neg_other rfl, sub_and]; exact not_g (infix_g (Json.letters_raw (by decide)) a1 b1), not_jv (infix_jv a2 b2 (w := "&"))⟩
  | all vs f ih =>
    intro bd sc hb h
    obtain ⟨hne, hv, h⟩ := h
    obtain ⟨j, g, e⟩ := ih (subV_bd vs bd sc hb) h
    refine ⟨_, by rw [F.tree, sub_all]; exact quant_g (Json.letters_raw (by decide)) (subV_g vs bd hb hne hv) g, ?_⟩
    have := jv_strs hne
    simp [jv, jvL, this, e, toF, Fm.json, Js.Spec.str]
  | ex vs f ih =>
    intro bd sc hb h
    obtain ⟨hne, hv, h⟩ := h
    obtain ⟨j, g, e⟩ := ih (subV_bd vs bd sc hb) h
    refine ⟨_, by rw [F.tree, sub_ex]; exact quant_g (Json.letters_raw (by decide)) (subV_g vs bd hb hne hv) g, ?_⟩
    have := jv_strs hne
    simp [jv, jvL, this, e, toF, Fm.json, Js.Spec.str]

/-! ### The formula is in the language -/

theorem num_js {t : String} (h : Num t) : t ≠ "" ∧ t ∉ reserved := by
  obtain ⟨h1, h2, -, -⟩ := h
  refine ⟨fun e => h1 (by rw [e]; rfl), fun hm => ?_⟩
  have : ∀ s ∈ reserved, ¬ ∀ c ∈ s.toList, 48 ≤ c.toNat ∧ c.toNat ≤ 57 := by decide +kernel
  exact this t hm h2

mutual
theorem t_wf {sc : List String} (hsc : ∀ x ∈ sc, capital x = true) : ∀ t : T, t.WF sc → Js.Spec.WFT sc (toT sc t)
  | .var x, h => by
    simp only [T.WF] at h
    simp only [toT, Js.Spec.WFT]
    split
    · exact cap_name h.1
    · exact name_qm h.1
  | .name q s, h => by
    simp only [T.WF] at h
    exact h.2.1
  | .obj s, _ => name_hash s
  | .num t, h => by
    simp only [T.WF] at h
    exact ⟨.inl rfl, num_js h⟩
  | .app q f as, h => by
    simp only [T.WF] at h
    simp only [toT, Js.Spec.WFT]
    exact ⟨.inl ⟨h.1.2.1, h.1.2.2.1, h.1.2.2.2.2.1⟩, tl_wf hsc as h.2.2⟩
  | .arith op a b, h => by
    simp only [T.WF] at h
    simp only [toT, Js.Spec.WFT, Js.Spec.WFTL]
    refine ⟨.inr ?_, t_wf hsc a h.2.1, t_wf hsc b h.2.2, trivial⟩
    have := h.1
    simp only [List.mem_cons, List.not_mem_nil, or_false] at this ⊢
    rcases this with h | h | h <;> simp [h]
theorem tl_wf {sc : List String} (hsc : ∀ x ∈ sc, capital x = true) : ∀ as : List T, WFL sc as → Js.Spec.WFTL sc (toTL sc as)
  | [], _ => trivial
  | a :: as, h => by
    simp only [WFL] at h
    exact ⟨t_wf hsc a h.1, tl_wf hsc as h.2⟩
end

theorem toTL_ne {sc : List String} {as : List T} (h : as ≠ []) : toTL sc as ≠ [] := by
  cases as with
  | nil => exact absurd rfl h
  | cons a r => simp [toTL]

theorem pred_js {sc : List String} {q : Bool} {p : String} (h : PredSym sc q p) : Js.Spec.Pred sc p :=
  ⟨⟨h.1.2.1, h.1.2.2.1, h.1.2.2.2.2.1⟩, h.2.1, h.2.2⟩

theorem f_wf : ∀ (f : F) {sc : List String}, (∀ x ∈ sc, capital x = true) → f.WF sc → Js.Spec.WF sc (toF sc f) := by
  intro f
  induction f with
  | atom q p as =>
    intro sc hsc h
    exact ⟨pred_js h.1, toTL_ne h.2.1, tl_wf hsc as h.2.2⟩
  | prop q p =>
    intro sc hsc h
    exact pred_js h
  | const b => intro sc _ _; trivial
  | eq a b =>
    intro sc hsc h
    exact ⟨by decide, t_wf hsc a h.1, t_wf hsc b h.2⟩
  | neq a b =>
    intro sc hsc h
    exact ⟨by decide, by decide, t_wf hsc a h.1, t_wf hsc b h.2⟩
  | neg f ih =>
    intro sc hsc h
    obtain ⟨h, hs⟩ := h
    have i := ih hsc h
    cases f with
    | atom q p as =>
      exact ⟨.inl rfl, pred_js h.1, hs, toTL_ne h.2.1, tl_wf hsc as h.2.2⟩
    | _ => exact ⟨by decide, i⟩
  | bin op a b iha ihb =>
    intro sc hsc h
    have ha := iha hsc h.1
    have hb := ihb hsc h.2
    cases op with
    | and => exact ⟨by decide, Nat.le_refl 2, ha, hb, trivial⟩
    | or => exact ⟨by decide, Nat.le_refl 2, ha, hb, trivial⟩
    | imp => exact ⟨by decide, ha, hb⟩
    | rimp => exact ⟨by decide, hb, ha⟩
    | eqv => exact ⟨by decide, ha, hb⟩
    | xor => exact ⟨by decide, by decide, ha, hb⟩
    | nor => exact ⟨by decide, by decide, Nat.le_refl 2, ha, hb, trivial⟩
    | nand => exact ⟨by decide, by decide, Nat.le_refl 2, ha, hb, trivial⟩
  | all vs f ih =>
    intro sc hsc h
    obtain ⟨hne, hv, h⟩ := h
    refine ⟨by decide, hne, fun x hx => .inr (hv x hx).1, ih (fun x hx => ?_) h⟩
    rcases List.mem_append.1 hx with hx | hx
    · exact (hv x hx).1
    · exact hsc x hx
  | ex vs f ih =>
    intro sc hsc h
    obtain ⟨hne, hv, h⟩ := h
    refine ⟨by decide, hne, fun x hx => .inr (hv x hx).1, ih (fun x hx => ?_) h⟩
    rcases List.mem_append.1 hx with hx | hx
    · exact (hv x hx).1
    · exact hsc x hx

/-! ### The formula means the same -/

section
variable {D : Type}

/-- the values of the variables of the formula, from the values of the variables in JSON -/
def back (sc : List String) (v : String → D) (x : String) : D := if x ∈ sc then v x else v ("?:" ++ x)

mutual
theorem t_sem (S : Struct D) {sc : List String} (hsc : ∀ x ∈ sc, capital x = true) (v : String → D) : ∀ t : T, t.WF sc →
    S.js.ev sc v (toT sc t) = S.ev (back sc v) t
  | .var x, h => by
    simp only [T.WF] at h
    simp only [toT, Str.ev, Struct.ev, back]
    by_cases hx : x ∈ sc
    · simp [hx]
    · simp [hx, qvar_qm h.1]
  | .name q s, h => by
    simp only [T.WF] at h
    obtain ⟨-, -, h1, h2, h3, -⟩ := h
    simp only [toT, Str.ev, Struct.ev, h1, h3, Struct.js, if_neg h2]
    simp
  | .obj s, h => by
    have hn : "#:" ++ s ∉ sc := fun hm => by
      have := hsc _ hm
      rw [cap_hash] at this
      cases this
    have hp : ['#', ':'] <+: ("#:" ++ s).toList := ⟨s.toList, by rw [hash_toList]; rfl⟩
    simp only [toT, Str.ev, Struct.ev, qvar_hash, hn, Struct.js, if_pos hp, hash_toList]
    simp
  | .num t, _ => rfl
  | .app q f as, h => by
    simp only [T.WF] at h
    simp only [toT, Str.ev, Struct.ev, tl_sem S hsc v as h.2.2]
    rfl
  | .arith op a b, h => by
    simp only [T.WF] at h
    simp only [toT, Str.ev, Str.evL, Struct.ev, t_sem S hsc v a h.2.1, t_sem S hsc v b h.2.2]
    rfl
theorem tl_sem (S : Struct D) {sc : List String} (hsc : ∀ x ∈ sc, capital x = true) (v : String → D) : ∀ as : List T, WFL sc as →
    S.js.evL sc v (toTL sc as) = S.evL (back sc v) as
  | [], _ => rfl
  | a :: as, h => by
    simp only [WFL] at h
    simp only [toTL, Str.evL, Struct.evL, t_sem S hsc v a h.1, tl_sem S hsc v as h.2]
end

theorem qm_not {sc : List String} (hsc : ∀ x ∈ sc, capital x = true) (x : String) : "?:" ++ x ∉ sc := fun hm => by
  have := hsc _ hm
  rw [cap_qm] at this
  cases this

theorem back_off {vs sc : List String} (hvs : ∀ x ∈ vs, capital x = true) (v v' : String → D) (h : ∀ s, s ∉ vs → v' s = v s) :
    ∀ x, x ∉ vs → back (vs ++ sc) v' x = back sc v x := by
  intro x hx
  simp only [back, List.mem_append, hx, false_or]
  rw [h x hx, h _ (qm_not hvs x)]

theorem back_on {vs sc : List String} (hvs : ∀ x ∈ vs, capital x = true) (v u : String → D) (h : ∀ x, x ∉ vs → u x = back sc v x) :
    ∃ v', (∀ s, s ∉ vs → v' s = v s) ∧ back (vs ++ sc) v' = u := by
  refine ⟨fun s => if s ∈ vs then u s else v s, fun s hs => if_neg hs, funext fun x => ?_⟩
  simp only [back, List.mem_append]
  by_cases hx : x ∈ vs
  · simp [hx]
  · have := h x hx
    simp only [back] at this
    simp only [hx, false_or, if_neg (qm_not hvs x), this]
    split <;> simp

theorem f_sem (S : Struct D) : ∀ (f : F) {sc : List String}, (∀ x ∈ sc, capital x = true) → f.WF sc → ∀ v : String → D,
    S.js.means sc v (toF sc f) ↔ S.means (back sc v) f := by
  intro f
  induction f with
  | atom q p as =>
    intro sc hsc h v
    simp only [toF, Str.means, Struct.means, tl_sem S hsc v as h.2.2]
    rfl
  | prop q p => intro sc hsc h v; rfl
  | const b => intro sc hsc h v; rfl
  | eq a b =>
    intro sc hsc h v
    simp only [toF, Str.means, Struct.means, t_sem S hsc v a h.1, t_sem S hsc v b h.2]
    rfl
  | neq a b =>
    intro sc hsc h v
    simp only [toF, Str.means, Struct.means, t_sem S hsc v a h.1, t_sem S hsc v b h.2]
    rfl
  | neg f ih =>
    intro sc hsc h v
    obtain ⟨h, hs⟩ := h
    have i := ih hsc h v
    cases f with
    | atom q p as => exact not_congr i
    | _ => exact not_congr i
  | bin op a b iha ihb =>
    intro sc hsc h v
    have ha := iha hsc h.1 v
    have hb := ihb hsc h.2 v
    cases op <;> simp [toF, Str.means, Str.allOf, Str.anyOf, Struct.means, Op.holds, ha, hb]
  | all vs f ih =>
    intro sc hsc h v
    obtain ⟨hne, hv, h⟩ := h
    have hvs : ∀ x ∈ vs, capital x = true := fun x hx => (hv x hx).1
    have hsc' : ∀ x ∈ vs ++ sc, capital x = true := fun x hx => (List.mem_append.1 hx).elim (hvs x) (hsc x)
    simp only [toF, Str.means, Struct.means, if_true]
    constructor
    · intro H u hu
      obtain ⟨v', h1, h2⟩ := back_on hvs v u hu
      rw [← h2]
      exact (ih hsc' h v').1 (H v' h1)
    · intro H v' hv'
      exact (ih hsc' h v').2 (H _ (back_off hvs v v' hv'))
  | ex vs f ih =>
    intro sc hsc h v
    obtain ⟨hne, hv, h⟩ := h
    have hvs : ∀ x ∈ vs, capital x = true := fun x hx => (hv x hx).1
    have hsc' : ∀ x ∈ vs ++ sc, capital x = true := fun x hx => (List.mem_append.1 hx).elim (hvs x) (hsc x)
    simp only [toF, Str.means, Struct.means, show ("exists" = "forall") = False from by simp, if_false]
    constructor
    · rintro ⟨v', hv', H⟩
      exact ⟨_, back_off hvs v v' hv', (ih hsc' h v').1 H⟩
    · rintro ⟨u, hu, H⟩
      obtain ⟨v', h1, h2⟩ := back_on hvs v u hu
      rw [← h2] at H
      exact ⟨v', h1, (ih hsc' h v').2 H⟩

/-! ### Only the free variables matter -/

mutual
theorem t_coin (S : Struct D) {sc : List String} (hsc : ∀ x ∈ sc, capital x = true) (u u' : String → D) (h1 : ∀ x ∈ sc, u x = u' x) :
    ∀ t : T, t.WF sc → (∀ x, x ∉ sc → "?:" ++ x ∈ Js.Spec.fvT sc (toT sc t) → u x = u' x) → S.ev u t = S.ev u' t
  | .var x, h, h2 => by
    simp only [T.WF] at h
    simp only [Struct.ev]
    by_cases hx : x ∈ sc
    · exact h1 x hx
    · refine h2 x hx ?_
      simp [toT, hx, Js.Spec.fvT, qvar_qm h.1, qm_not hsc]
  | .name _ _, _, _ => rfl
  | .obj _, _, _ => rfl
  | .num _, _, _ => rfl
  | .app q f as, h, h2 => by
    simp only [T.WF] at h
    simp only [Struct.ev]
    rw [tl_coin S hsc u u' h1 as h.2.2 (by simpa only [toT, Js.Spec.fvT] using h2)]
  | .arith op a b, h, h2 => by
    simp only [T.WF] at h
    simp only [toT, Js.Spec.fvT, Js.Spec.fvTL, List.append_nil, List.mem_append] at h2
    simp only [Struct.ev]
    rw [t_coin S hsc u u' h1 a h.2.1 fun x hx hm => h2 x hx (.inl hm), t_coin S hsc u u' h1 b h.2.2 fun x hx hm => h2 x hx (.inr hm)]
theorem tl_coin (S : Struct D) {sc : List String} (hsc : ∀ x ∈ sc, capital x = true) (u u' : String → D) (h1 : ∀ x ∈ sc, u x = u' x) :
    ∀ as : List T, WFL sc as → (∀ x, x ∉ sc → "?:" ++ x ∈ Js.Spec.fvTL sc (toTL sc as) → u x = u' x) → S.evL u as = S.evL u' as
  | [], _, _ => rfl
  | a :: as, h, h2 => by
    simp only [WFL] at h
    simp only [toTL, Js.Spec.fvTL, List.mem_append] at h2
    simp only [Struct.evL]
    rw [t_coin S hsc u u' h1 a h.1 fun x hx hm => h2 x hx (.inl hm), tl_coin S hsc u u' h1 as h.2 fun x hx hm => h2 x hx (.inr hm)]
end

theorem f_coin (S : Struct D) : ∀ (f : F) {sc : List String}, (∀ x ∈ sc, capital x = true) → f.WF sc → ∀ u u' : String → D,
    (∀ x ∈ sc, u x = u' x) → (∀ x, x ∉ sc → "?:" ++ x ∈ (toF sc f).fv sc → u x = u' x) → (S.means u f ↔ S.means u' f) := by
  intro f
  have quant : ∀ (f : F), (∀ {sc : List String}, (∀ x ∈ sc, capital x = true) → f.WF sc → ∀ u u' : String → D,
      (∀ x ∈ sc, u x = u' x) → (∀ x, x ∉ sc → "?:" ++ x ∈ (toF sc f).fv sc → u x = u' x) → (S.means u f ↔ S.means u' f)) →
      ∀ {sc vs : List String}, (∀ x ∈ sc, capital x = true) → (∀ x ∈ vs, Var x) → f.WF (vs ++ sc) → ∀ u u' : String → D,
      (∀ x ∈ sc, u x = u' x) → (∀ x, x ∉ sc → "?:" ++ x ∈ (toF (vs ++ sc) f).fv (vs ++ sc) → u x = u' x) →
      ∀ w, (∀ x, x ∉ vs → w x = u x) → ∃ w', (∀ x, x ∉ vs → w' x = u' x) ∧ (S.means w f ↔ S.means w' f) := by
    intro f ih sc vs hsc hv h u u' h1 h2 w hw
    refine ⟨fun x => if x ∈ vs then w x else u' x, fun x hx => if_neg hx, ?_⟩
    refine ih (fun x hx => (List.mem_append.1 hx).elim (fun hx => (hv x hx).1) (hsc x)) h _ _ (fun x hx => ?_) fun x hx hm => ?_
    · by_cases hx' : x ∈ vs
      · simp [hx']
      · simp only [if_neg hx']
        rw [hw x hx', h1 x ((List.mem_append.1 hx).resolve_left hx')]
    · have hx' : x ∉ vs := fun h => hx (List.mem_append.2 (.inl h))
      simp only [if_neg hx']
      rw [hw x hx', h2 x (fun h => hx (List.mem_append.2 (.inr h))) hm]
  induction f with
  | atom q p as =>
    intro sc hsc h u u' h1 h2
    simp only [Struct.means]
    rw [tl_coin S hsc u u' h1 as h.2.2 h2]
  | prop q p => intro sc hsc h u u' h1 h2; rfl
  | const b => intro sc hsc h u u' h1 h2; rfl
  | eq a b =>
    intro sc hsc h u u' h1 h2
    simp only [toF, Fm.fv, List.mem_append] at h2
    simp only [Struct.means]
    rw [t_coin S hsc u u' h1 a h.1 fun x hx hm => h2 x hx (.inl hm), t_coin S hsc u u' h1 b h.2 fun x hx hm => h2 x hx (.inr hm)]
  | neq a b =>
    intro sc hsc h u u' h1 h2
    simp only [toF, Fm.fv, List.mem_append] at h2
    simp only [Struct.means]
    rw [t_coin S hsc u u' h1 a h.1 fun x hx hm => h2 x hx (.inl hm), t_coin S hsc u u' h1 b h.2 fun x hx hm => h2 x hx (.inr hm)]
  | neg f ih =>
    intro sc hsc h u u' h1 h2
    obtain ⟨h, hs⟩ := h
    refine not_congr (ih hsc h u u' h1 ?_)
    cases f <;> exact h2
  | bin op a b iha ihb =>
    intro sc hsc h u u' h1 h2
    have ha := iha hsc h.1 u u' h1 fun x hx hm => h2 x hx (by cases op <;> simp [toF, Fm.fv, Js.Spec.fvL, hm])
    have hb := ihb hsc h.2 u u' h1 fun x hx hm => h2 x hx (by cases op <;> simp [toF, Fm.fv, Js.Spec.fvL, hm])
    simp only [Struct.means, ha, hb]
  | all vs f ih =>
    intro sc hsc h u u' h1 h2
    obtain ⟨hne, hv, h⟩ := h
    simp only [Struct.means]
    constructor
    · intro H w' hw'
      obtain ⟨w, hw, e⟩ := quant f ih hsc hv h u' u (fun x hx => (h1 x hx).symm) (fun x hx hm => (h2 x hx hm).symm) w' hw'
      exact e.2 (H w hw)
    · intro H w hw
      obtain ⟨w', hw', e⟩ := quant f ih hsc hv h u u' h1 h2 w hw
      exact e.2 (H w' hw')
  | ex vs f ih =>
    intro sc hsc h u u' h1 h2
    obtain ⟨hne, hv, h⟩ := h
    simp only [Struct.means]
    constructor
    · rintro ⟨w, hw, H⟩
      obtain ⟨w', hw', e⟩ := quant f ih hsc hv h u u' h1 h2 w hw
      exact ⟨w', hw', e.1 H⟩
    · rintro ⟨w', hw', H⟩
      obtain ⟨w, hw, e⟩ := quant f ih hsc hv h u' u (fun x hx => (h1 x hx).symm) (fun x hx hm => (h2 x hx hm).symm) w' hw'
      exact ⟨w, hw, e.1 H⟩
end

/-! ### The file -/

theorem raw_nul {r s : List Char} (h : StrRaw r s) : ∀ c ∈ r, c ≠ '\x00' := by
  induction h with
  | nil => intro c hc; cases hc
  | plain h1 h2 h3 h4 ih =>
    intro c hc
    rcases List.mem_cons.1 hc with rfl | hc
    · rintro rfl; exact absurd h3 (by decide)
    · exact ih c hc
  | esc h1 h2 ih =>
    intro c hc
    simp only [List.mem_cons] at hc
    rcases hc with rfl | rfl | hc
    · decide
    · rintro rfl; rw [show Json.escChar '\x00' = none from by decide] at h1; cases h1
    · exact ih c hc
  | uni h1 h2 h3 h4 h5 ih =>
    intro c hc
    simp only [List.mem_cons] at hc
    rcases hc with rfl | rfl | rfl | rfl | rfl | rfl | hc
    · decide
    · decide
    · rintro rfl; rw [show Json.hexVal '\x00' = none from by decide] at h1; cases h1
    · rintro rfl; rw [show Json.hexVal '\x00' = none from by decide] at h2; cases h2
    · rintro rfl; rw [show Json.hexVal '\x00' = none from by decide] at h3; cases h3
    · rintro rfl; rw [show Json.hexVal '\x00' = none from by decide] at h4; cases h4
    · exact ih c hc

theorem ws_nul {c : Char} (h : IsWs c) : c ≠ '\x00' := by
  rcases h with rfl | rfl | rfl | rfl <;> decide

theorem dig_nul {c : Char} (h : IsDig c) : c ≠ '\x00' := by
  rintro rfl
  exact absurd h.1 (by decide)

theorem num_nul {r : List Char} (h : NumOk r) : ∀ c ∈ r, c ≠ '\x00' := by
  obtain ⟨sign, ip, fr, ex, rfl, h1, h2, h3, h4⟩ := h
  intro c hc
  simp only [List.mem_append] at hc
  rcases hc with ((hc | hc) | hc) | hc
  · rcases h1 with rfl | rfl
    · cases hc
    · simp at hc; subst hc; decide
  · exact dig_nul (h2.2.1 c hc)
  · rcases h3 with rfl | ⟨ds, _, hd, rfl⟩
    · cases hc
    · rcases List.mem_cons.1 hc with rfl | hc
      · decide
      · exact dig_nul (hd c hc)
  · rcases h4 with rfl | ⟨e, sg, ds, he, hs, _, hd, rfl⟩
    · cases hc
    · simp only [List.mem_cons, List.mem_append] at hc
      rcases hc with rfl | hc | hc
      · rcases he with rfl | rfl <;> decide
      · rcases hs with rfl | rfl | rfl
        · cases hc
        · simp at hc; subst hc; decide
        · simp at hc; subst hc; decide
      · exact dig_nul (hd c hc)

/-- a JSON text has no zero byte -/
theorem g_nul {t : List Char} {p : Json.Piece} (h : G t p) : ∀ c ∈ t, c ≠ '\x00' := by
  induction h with
  | wsl h _ ih =>
    intro c hc
    rcases List.mem_cons.1 hc with rfl | hc
    · exact ws_nul h
    · exact ih c hc
  | wsr h _ ih =>
    intro c hc
    rcases List.mem_append.1 hc with hc | hc
    · exact ih c hc
    · simp at hc; subst hc; exact ws_nul h
  | num h => exact num_nul h
  | str h =>
    intro c hc
    simp only [List.mem_cons, List.mem_append, List.not_mem_nil, or_false] at hc
    rcases hc with rfl | hc | rfl
    · decide
    · exact raw_nul h c hc
    · decide
  | tru => decide
  | fls => decide
  | null => decide
  | arr0 h =>
    intro c hc
    simp only [List.mem_cons, List.mem_append, List.not_mem_nil, or_false] at hc
    rcases hc with rfl | hc | rfl
    · decide
    · exact ws_nul (h c hc)
    · decide
  | arr _ ih =>
    intro c hc
    simp only [List.mem_cons, List.mem_append, List.not_mem_nil, or_false] at hc
    rcases hc with rfl | hc | rfl
    · decide
    · exact ih c hc
    · decide
  | obj0 h =>
    intro c hc
    simp only [List.mem_cons, List.mem_append, List.not_mem_nil, or_false] at hc
    rcases hc with rfl | hc | rfl
    · decide
    · exact ws_nul (h c hc)
    · decide
  | obj _ ih =>
    intro c hc
    simp only [List.mem_cons, List.mem_append, List.not_mem_nil, or_false] at hc
    rcases hc with rfl | hc | rfl
    · decide
    · exact ih c hc
    · decide
  | one _ ih => exact ih
  | more _ _ ih ih' =>
    intro c hc
    simp only [List.mem_cons, List.mem_append] at hc
    rcases hc with hc | rfl | hc
    · exact ih c hc
    · decide
    · exact ih' c hc
  | mem h1 h2 h3 _ ih =>
    intro c hc
    simp only [List.mem_cons, List.mem_append] at hc
    rcases hc with hc | rfl | hc | rfl | hc | rfl | hc
    · exact ws_nul (h1 c hc)
    · decide
    · exact raw_nul h2 c hc
    · decide
    · exact ws_nul (h3 c hc)
    · decide
    · exact ih c hc
  | mems _ _ ih ih' =>
    intro c hc
    simp only [List.mem_cons, List.mem_append] at hc
    rcases hc with hc | rfl | hc
    · exact ih c hc
    · decide
    · exact ih' c hc

theorem shown_written {t buf : List Char} (h : ∀ c ∈ t, c ≠ '\x00') : shown (written buf t true) = t := by
  simp only [shown, written, if_true]
  induction t with
  | nil => simp
  | cons c t ih =>
    have h1 := h c (by simp)
    have h2 := ih fun c hc => h c (by simp [hc])
    rw [List.takeWhile_append_of_pos]
    · simp
    · intro c hc
      simpa using h c hc

theorem expanded_id {i : In} (h : i.f.WF []) : i.item.expanded = i.f.tree := by
  obtain ⟨kw, n, r, f⟩ := i
  show expandE f.tree = f.tree
  have key : ∀ (a : Atm) (r : List Lst), a.s1 ≠ "$$lst" → expandE (.list (.atom a :: r)) = .list (.atom a :: r) := by
    intro a r h
    simp [expandE, h]
  cases f with
  | atom q p as => exact key _ _ h.1.1.2.2.2.2.2.2
  | prop q p => cases q <;> rfl
  | const b => rfl
  | bin op a b => cases op <;> exact key _ _ (by simp)
  | _ => exact key _ _ (by simp)

theorem tree_terminated {i : In} (h : i.Fine) : terminated i.f.tree = true := by
  obtain ⟨kw, n, r, f⟩ := i
  cases f with
  | prop q p => exact absurd rfl (h.big q p)
  | const b => cases b <;> rfl
  | bin op a b => cases op <;> rfl
  | _ => rfl

theorem name_g {n : String} (h : ∀ c ∈ n.toList, PlainChar c) :
    G (if '"' ∈ n.toList then dquoted false false n else '"' :: (n.toList ++ ['"'])) (.val (.str n.toList)) := by
  split
  · have := dquoted_g (neg := false) (uniq := false) h
    simpa using this
  · rename_i hq
    exact .str (Json.raw_plain fun c hc => ⟨h c hc, fun e => hq (e ▸ hc)⟩)

/-- the value for a formula with a name -/
def val (i : String × In) (l : J) : J :=
  .obj [("@name".toList, .str i.1.toList), ("@role".toList, .str i.2.role.toList), ("@logic".toList, l)]

/-- the text of an item -/
theorem item_g {i : In} (h : i.Fine) : ∃ t l, G t (.val (val (i.name, i) l)) ∧ jv l = some (toF [] i.f).json ∧
    ∀ buf last, (i.item.print buf last).1 = t ++ (if last then "\n" else ",\n").toList := by
  obtain ⟨l, g, e⟩ := f_json i.f (bd := []) (sc := []) (fun x => by simp [bound]) h.wf
  obtain ⟨nt, hnt⟩ : ∃ nt, nt = (if '"' ∈ i.name.toList then dquoted false false i.name else '"' :: (i.name.toList ++ ['"'])) := ⟨_, rfl⟩
  have hng : G nt (.val (.str i.name.toList)) := hnt ▸ name_g h.name
  have m1 : G ([] ++ '"' :: ("@name".toList ++ '"' :: ([] ++ ':' :: nt)))
      (.mems [("@name".toList, .str i.name.toList)]) := .mem (w := []) (w' := []) (by simp) (Json.letters_raw (by decide)) (by simp) hng
  have m2 : G ([] ++ '"' :: ("@role".toList ++ '"' :: ([] ++ ':' :: ('"' :: (i.role.toList ++ ['"'])))))
      (.mems [("@role".toList, .str i.role.toList)]) := .mem (w := []) (w' := []) (by simp) (Json.letters_raw (by decide)) (by simp) (.str (Json.raw_plain h.role))
  have m3 : G ([] ++ '"' :: ("@logic".toList ++ '"' :: ([] ++ ':' :: sub false false [] i.f.tree)))
      (.mems [("@logic".toList, l)]) := .mem (w := []) (w' := []) (by simp) (Json.letters_raw (by decide)) (by simp) g
  have m := G.obj (G.mems m1 (G.mems m2 m3))
  have ht : i.item.before ++ frmText i.item.expanded ++ ['}'] = '{' :: (([] ++ '"' :: ("@name".toList ++ '"' :: ([] ++ ':' :: nt))) ++
      ',' :: (([] ++ '"' :: ("@role".toList ++ '"' :: ([] ++ ':' :: ('"' :: (i.role.toList ++ ['"']))))) ++
      ',' :: ([] ++ '"' :: ("@logic".toList ++ '"' :: ([] ++ ':' :: sub false false [] i.f.tree)))) ++ ['}']) := by
    rw [expanded_id h.wf]
    show "{\"@name\":".toList ++ (if '"' ∈ i.name.toList then dquoted false false i.name else '"' :: (i.name.toList ++ ['"'])) ++
      ",\"@role\":\"".toList ++ i.role.toList ++ "\",\"@logic\":".toList ++ sub false false [] i.f.tree ++ ['}'] = _
    rw [← hnt]
    generalize sub false false [] i.f.tree = ft
    generalize i.role.toList = rt
    rw [show "{\"@name\":".toList = '{' :: '"' :: ("@name".toList ++ ['"', ':']) from rfl,
      show ",\"@role\":\"".toList = ',' :: '"' :: ("@role".toList ++ ['"', ':', '"']) from rfl,
      show "\",\"@logic\":".toList = '"' :: ',' :: '"' :: ("@logic".toList ++ ['"', ':']) from rfl]
    generalize "@name".toList = n1
    generalize "@role".toList = n2
    generalize "@logic".toList = n3
    simp only [List.append_assoc, List.cons_append, List.nil_append]
  rw [← ht] at m
  refine ⟨_, l, m, e, fun buf last => ?_⟩
  have hn := g_nul m
  simp only [Item.print]
  rw [expanded_id h.wf, tree_terminated h, ← expanded_id h.wf, shown_written fun c hc => hn c (by simp only [List.mem_append] at hc ⊢; exact .inl hc)]
  cases last <;> simp

theorem imported_item (i : In) : i.item.imported = In.item { i with name := "$inc_" ++ String.ofList (i.name.toList.take 900) } := rfl

theorem imported_fine {i : In} (h : i.Fine) : In.Fine { i with name := "$inc_" ++ String.ofList (i.name.toList.take 900) } := by
  refine ⟨?_, h.role, h.wf, h.big⟩
  intro c hc
  simp only [String.toList_append, List.mem_append, String.toList_ofList] at hc
  rcases hc with hc | hc
  · have : ∀ c ∈ "$inc_".toList, c ≠ '\\' ∧ 32 ≤ c.toNat := by decide
    exact this c hc
  · exact h.name c (List.mem_of_mem_take hc)

/-- an included file -/
theorem incl_g : ∀ (is : List In), is ≠ [] → (∀ i ∈ is, i.Fine) → ∃ t js, G t (.elems js) ∧
    List.Forall₂ (fun i j => ∃ l, j = val i l ∧ jv l = some (toF [] i.2.f).json) (Line.incl is).named js ∧
    ∀ buf, (printIncl buf (is.map In.item)).1 = t ++ ",\n".toList
  | [], h, _ => absurd rfl h
  | [i], _, h => by
    obtain ⟨t, l, g, e, p⟩ := item_g (imported_fine (h i (by simp)))
    refine ⟨t ++ ['\n'], [_], .one (.wsr (.inr (.inl rfl)) g), .cons ⟨l, rfl, e⟩ .nil, fun buf => ?_⟩
    simp only [List.map_cons, List.map_nil, printIncl, imported_item, List.isEmpty_nil]
    rw [p]
    simp
  | i :: k :: r, _, h => by
    obtain ⟨t, l, g, e, p⟩ := item_g (imported_fine (h i (by simp)))
    obtain ⟨u, js, gu, fu, pu⟩ := incl_g (k :: r) (by simp) fun x hx => h x (List.mem_cons_of_mem _ hx)
    refine ⟨t ++ ',' :: ('\n' :: u), _ :: js, .more g (Json.elems_wsl Json.ws_nl gu), .cons ⟨l, rfl, e⟩ fu, fun buf => ?_⟩
    rw [List.map_cons, printIncl]
    simp only [imported_item, List.map_cons, List.isEmpty_cons]
    rw [p]
    have := pu (Item.print buf (In.item { i with name := "$inc_" ++ String.ofList (i.name.toList.take 900) }) false).2
    rw [List.map_cons] at this
    rw [this]
    simp

/-- the lines -/
theorem loop_g : ∀ (ls : List Line), (∃ x, ls.getLast? = some x ∧ x.isFrm = true) → (∀ x ∈ ls, x.Fine) → ∀ buf, ∃ js,
    G (printLoop buf (ls.map Line.entry)).1 (.elems js) ∧
    List.Forall₂ (fun i j => ∃ l, j = val i l ∧ jv l = some (toF [] i.2.f).json) (ls.flatMap Line.named) js
  | [], h, _, _ => by
    obtain ⟨x, h, -⟩ := h
    cases h
  | [.incl is], h, _, _ => by
    obtain ⟨x, h, h'⟩ := h
    cases h
    cases h'
  | [.frm i], _, h, buf => by
    obtain ⟨t, l, g, e, p⟩ := item_g (i := i) (h (.frm i) (by simp))
    refine ⟨[_], ?_, .cons ⟨l, rfl, e⟩ .nil⟩
    simp only [List.map_cons, List.map_nil, Line.entry, printLoop, List.isEmpty_nil]
    rw [p]
    have := G.one (G.wsr (c := '\n') (.inr (.inl rfl)) g)
    simpa using this
  | .frm i :: y :: r, h, hf, buf => by
    obtain ⟨t, l, g, e, p⟩ := item_g (i := i) (hf (.frm i) (by simp))
    obtain ⟨js, gu, fu⟩ := loop_g (y :: r) (by simpa using h) (fun x hx => hf x (List.mem_cons_of_mem _ hx)) (i.item.print buf false).2
    refine ⟨val (i.name, i) l :: js, ?_, ?_⟩
    · simp only [List.map_cons, Line.entry] at gu
      simp only [List.map_cons, Line.entry, printLoop, List.isEmpty_cons]
      rw [p]
      have := G.more g (Json.elems_wsl Json.ws_nl gu)
      simpa [printLoop] using this
    · rw [List.flatMap_cons]
      exact .cons ⟨l, rfl, e⟩ fu
  | .incl is :: y :: r, h, hf, buf => by
    have hi : Line.Fine (.incl is) := hf (.incl is) (by simp)
    obtain ⟨t, js, g, f, p⟩ := incl_g is hi.1 hi.2
    obtain ⟨js', gu, fu⟩ := loop_g (y :: r) (by simpa using h) (fun x hx => hf x (List.mem_cons_of_mem _ hx)) (printIncl buf (is.map In.item)).2
    refine ⟨js ++ js', ?_, ?_⟩
    · simp only [List.map_cons, Line.entry] at gu
      simp only [List.map_cons, Line.entry]
      rw [printLoop]
      simp only
      rw [p]
      have := Json.elems_append g (Json.elems_wsl Json.ws_nl gu)
      simpa using this
    · rw [List.flatMap_cons]
      exact List.rel_append f fu

end Gkc.Conv
