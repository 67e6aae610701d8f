import Verif.DeriveLemmas
/- Lemmas about paramodulation positions. -/
namespace Gkc
open Term

theorem decLitnr_enc {j pos : Nat} (hp : pos < 65536) : decLitnr (encPath j pos) = j % 256 := by
  have h1 : encPath j pos = j * 65536 + pos := by
    simp only [encPath]
    rw [← Nat.shiftLeft_add_eq_or_of_lt (show pos < 2 ^ 16 by omega), Nat.shiftLeft_eq]
  simp only [decLitnr, h1, Nat.shiftRight_and_distrib]
  have h2 : (j * 65536 + pos) >>> 16 = j := by
    rw [Nat.shiftRight_eq_div_pow]; omega
  have h3 : (0xFF0000 : Nat) >>> 16 = 2 ^ 8 - 1 := by decide
  rw [h2, h3, Nat.and_two_pow_sub_one_eq_mod]

theorem decPos_enc {j pos : Nat} (hp : pos < 65536) : decPos (encPath j pos) = pos := by
  have h1 : encPath j pos = j * 65536 + pos := by
    simp only [encPath]
    rw [← Nat.shiftLeft_add_eq_or_of_lt (show pos < 2 ^ 16 by omega), Nat.shiftLeft_eq]
  have h3 : (0xFFFF : Nat) = 2 ^ 16 - 1 := by decide
  simp only [decPos, h1]
  rw [h3, Nat.and_two_pow_sub_one_eq_mod]; omega

/-- the term is not a variable -/
def NonVar : Term → Prop
  | .var _ => False
  | _ => True

mutual
/-- offered subterms sit where their number says -/
theorem paraSubs_sound : ∀ (x : Term) (d path : Nat), (∀ q ∈ (paraSubs d path x).1,
      NonVar q.1 ∧ q.2 ≤ 60000 ∧ ∃ C : Ctx, x = C.fill q.1 ∧ path + C.posOf = q.2 ∧ (d = 0 → C ≠ .hole)) ∧
      ((paraSubs d path x).2 + 1 = path + size x ∨ (60000 < (paraSubs d path x).2))
  | .var v, d, path => by simp [paraSubs]
  | .const c, d, path => by
    simp only [paraSubs, size_const, true_or, and_true]
    split
    · simp
    · rename_i h
      intro q hq
      simp only [List.mem_singleton] at hq
      subst hq
      exact ⟨trivial, by omega, .hole, rfl, rfl, by omega⟩
  | .app f as, d, path => by
    simp only [paraSubs]
    split
    · rename_i h
      exact ⟨by simp, .inr h⟩
    · rename_i h
      obtain ⟨h1, h2⟩ := paraSubsL_sound as (d + 1) path
      have key : ∀ q ∈ (paraSubsL (d + 1) path as).1, NonVar q.1 ∧ q.2 ≤ 60000 ∧
          ∃ C : Ctx, Term.app f as = C.fill q.1 ∧ path + C.posOf = q.2 ∧ (d = 0 → C ≠ .hole) := by
        intro q hq
        obtain ⟨a1, a2, pre, C, post, a3, a4⟩ := h1 q hq
        refine ⟨a1, a2, .app f pre C post, by rw [a3]; rfl, by simp only [Ctx.posOf]; omega, fun _ => Ctx.noConfusion⟩
      refine ⟨?_, ?_⟩
      · split
        · exact key
        · rename_i hd
          intro q hq
          rcases List.mem_append.1 hq with hq | hq
          · exact key q hq
          · simp only [List.mem_singleton] at hq
            subst hq
            exact ⟨trivial, by omega, .hole, rfl, rfl, by omega⟩
      · rcases h2 with h2 | h2
        · left; simp only [size_app]; omega
        · exact .inr h2
theorem paraSubsL_sound : ∀ (as : List Term) (d path : Nat), (∀ q ∈ (paraSubsL d path as).1,
      NonVar q.1 ∧ q.2 ≤ 60000 ∧ ∃ pre, ∃ C : Ctx, ∃ post, as = pre ++ C.fill q.1 :: post ∧
        path + (sizeL pre + 1) + C.posOf = q.2) ∧
      ((paraSubsL d path as).2 = path + sizeL as ∨ 60000 < (paraSubsL d path as).2)
  | [], d, path => by simp [paraSubsL]
  | a :: as, d, path => by
    simp only [paraSubsL]
    obtain ⟨h1, h2⟩ := paraSubs_sound a d (path + 1)
    obtain ⟨h3, h4⟩ := paraSubsL_sound as d (paraSubs d (path + 1) a).2
    refine ⟨?_, ?_⟩
    · intro q hq
      rcases List.mem_append.1 hq with hq | hq
      · obtain ⟨a1, a2, C, a3, a4, _⟩ := h1 q hq
        exact ⟨a1, a2, [], C, as, by rw [← a3]; rfl, by simp; omega⟩
      · obtain ⟨a1, a2, pre, C, post, a3, a4⟩ := h3 q hq
        refine ⟨a1, a2, a :: pre, C, post, by rw [a3]; rfl, ?_⟩
        rcases h2 with h2 | h2
        · simp; omega
        · omega
    · rcases h2 with h2 | h2
      · rcases h4 with h4 | h4
        · left; simp; omega
        · exact .inr h4
      · right
        have := paraSubsL_ge as d (paraSubs d (path + 1) a).2
        omega
theorem paraSubsL_ge : ∀ (as : List Term) (d path : Nat), path ≤ (paraSubsL d path as).2
  | [], d, path => by simp [paraSubsL]
  | a :: as, d, path => by
    simp only [paraSubsL]
    have h1 := paraSubs_ge a d (path + 1)
    have h2 := paraSubsL_ge as d (paraSubs d (path + 1) a).2
    omega
theorem paraSubs_ge : ∀ (x : Term) (d path : Nat), path ≤ (paraSubs d path x).2
  | .var v, d, path => by simp [paraSubs]
  | .const c, d, path => by simp [paraSubs]
  | .app f as, d, path => by
    simp only [paraSubs]
    split
    · exact Nat.le_refl _
    · exact paraSubsL_ge as (d + 1) path
end

theorem paraSubsL_append : ∀ (as bs : List Term) (d path : Nat),
    (paraSubsL d path (as ++ bs)).1 = (paraSubsL d path as).1 ++ (paraSubsL d (paraSubsL d path as).2 bs).1
  | [], bs, d, path => by simp [paraSubsL]
  | a :: as, bs, d, path => by
    simp only [List.cons_append, paraSubsL, List.append_assoc]
    rw [paraSubsL_append as bs d]

mutual
theorem paraSubs_le : ∀ (x : Term) (d path : Nat), (paraSubs d path x).2 + 1 ≤ path + size x
  | .var v, d, path => by simp [paraSubs]
  | .const c, d, path => by simp [paraSubs]
  | .app f as, d, path => by
    simp only [paraSubs]
    split
    · simp
    · have := paraSubsL_le as (d + 1) path
      simp; omega
theorem paraSubsL_le : ∀ (as : List Term) (d path : Nat), (paraSubsL d path as).2 ≤ path + sizeL as
  | [], d, path => by simp [paraSubsL]
  | a :: as, d, path => by
    simp only [paraSubsL]
    have h1 := paraSubs_le a d (path + 1)
    have h2 := paraSubsL_le as d (paraSubs d (path + 1) a).2
    simp; omega
end

/-- every subterm with a number up to 60000 is offered, except variables and the atom itself -/
theorem paraSubs_complete (t : Term) (hn : NonVar t) : ∀ (C : Ctx) (d path : Nat), path + C.posOf ≤ 60000 →
    (d = 0 → C ≠ .hole) → (t, path + C.posOf) ∈ (paraSubs d path (C.fill t)).1
  | .hole, d, path, hle, hd => by
    have hd' : ¬ d < 1 := fun h => hd (by omega) rfl
    simp only [Ctx.posOf] at hle
    cases t with
    | var v => cases hn
    | const c =>
      simp only [Ctx.fill, Ctx.posOf, paraSubs]
      rw [if_neg (by omega)]; simp
    | app f as =>
      simp only [Ctx.fill, Ctx.posOf, paraSubs]
      rw [if_neg (by omega)]
      simp [hd']
  | .app f pre C post, d, path, hle, _ => by
    simp only [Ctx.posOf] at hle
    simp only [Ctx.fill, Ctx.posOf, paraSubs]
    rw [if_neg (by omega)]
    have h2 : (paraSubsL (d + 1) path pre).2 = path + sizeL pre := by
      rcases (paraSubsL_sound pre (d + 1) path).2 with h | h
      · exact h
      · have := paraSubsL_le pre (d + 1) path; omega
    have ih := paraSubs_complete t hn C (d + 1) (path + sizeL pre + 1) (by omega) (by omega)
    have hm : (t, path + (sizeL pre + 1 + C.posOf)) ∈ (paraSubsL (d + 1) path (pre ++ C.fill t :: post)).1 := by
      rw [paraSubsL_append, h2]
      apply List.mem_append_right
      simp only [paraSubsL]
      apply List.mem_append_left
      have e : path + (sizeL pre + 1 + C.posOf) = path + sizeL pre + 1 + C.posOf := by omega
      rw [e]; exact ih
    split
    · exact hm
    · exact List.mem_append_left _ hm

/-! ### Collected literals of a paramodulant -/

theorem picked_repl {θ : Nat → Term} {ln pos : Nat} {t : Term} : ∀ {cl i Ls},
    Picked θ none (some (ln, pos, t)) i cl Ls → i ≤ ln → ∀ {y}, cl[ln - i]? = some y →
    ∃ inst, InstOf θ (some (ln, pos, t)) ln y.atom inst ∧
      Ls = ((cl.take (ln - i)).map ALit.lit).map (Lit.subst θ) ++ ⟨y.neg, inst⟩ ::
        ((cl.drop (ln - i + 1)).map ALit.lit).map (Lit.subst θ) := by
  have plain : ∀ {cl i Ls}, Picked θ none (some (ln, pos, t)) i cl Ls → ln < i →
      Ls = (cl.map ALit.lit).map (Lit.subst θ) := by
    intro cl
    induction cl with
    | nil => intro i Ls h _; cases h; rfl
    | cons l ls ih =>
      intro i Ls h hi
      cases h with
      | skip hc h => cases hc
      | take hc hin h =>
        simp only [InstOf, show ¬ i = ln by omega, if_false] at hin
        rw [ih h (by omega), hin]; rfl
  intro cl
  induction cl with
  | nil => intro i Ls _ _ y hy; simp at hy
  | cons l ls ih =>
    intro i Ls h hi y hy
    cases h with
    | skip hc h => cases hc
    | take hc hin h =>
      by_cases he : i = ln
      · subst he
        simp only [Nat.sub_self, List.getElem?_cons_zero, Option.some.injEq] at hy
        subst hy
        refine ⟨_, hin, ?_⟩
        rw [plain h (by omega)]
        simp
      · simp only [InstOf, he, if_false] at hin
        have hs : ln - i = (ln - (i + 1)) + 1 := by omega
        rw [hs, List.getElem?_cons_succ] at hy
        obtain ⟨inst, h1, h2⟩ := ih h (by omega) hy
        refine ⟨inst, h1, ?_⟩
        rw [hs, h2, hin]
        simp [ALit.lit, Lit.subst]

/-- the clause with the atom of literal `j` replaced -/
def setAtom (cl : List ALit) (j : Nat) (neg : Bool) (a : Term) : List Lit :=
  (cl.take j).map ALit.lit ++ ⟨neg, a⟩ :: (cl.drop (j + 1)).map ALit.lit

theorem setAtom_subst {θ : Nat → Term} {cl : List ALit} {j : Nat} {neg : Bool} {a : Term} :
    (setAtom cl j neg a).map (Lit.subst θ) = ((cl.take j).map ALit.lit).map (Lit.subst θ) ++
      ⟨neg, subst θ a⟩ :: ((cl.drop (j + 1)).map ALit.lit).map (Lit.subst θ) := by
  simp [setAtom, Lit.subst]

theorem picked_para {θ : Nat → Term} {j : Nat} {C : Ctx} {u t : Term} {cl : List ALit} {y : ALit}
    (hy : cl[j]? = some y) (hC : y.atom = C.fill u) {Ls}
    (h : Picked θ none (some (j, C.posOf, t)) 0 cl Ls) : Ls = (setAtom cl j y.neg (C.fill t)).map (Lit.subst θ) := by
  obtain ⟨inst, h1, h2⟩ := picked_repl h (Nat.zero_le _) (y := y) (by simpa using hy)
  have : inst = subst θ (C.fill t) := by
    simp only [InstOf, if_true] at h1
    rcases h1 with ⟨C', u', e1, e2, e3⟩ | ⟨e1, _⟩
    · obtain ⟨rfl, _⟩ := posOf_inj (C := C') (E := C) (u := u') (w := u) (by rw [← e1, hC]) e2
      exact e3
    · have := posOf_lt u C; rw [← hC] at this; omega
  rw [h2, this, setAtom_subst]
  simp

theorem paraLits_spec {ev : Term → Option Term} {bank n : Nat} {st : St} {θ : Nat → Term} (hd : Den st.b θ)
    {xcl ycl : List ALit} {x y : ALit} (hx : x ∈ xcl)
    (hwx : ∀ l ∈ xcl, ∀ w ∈ vars l.atom, w < 4000) (hwy : ∀ l ∈ ycl, ∀ w ∈ vars l.atom, w < 4000)
    {j : Nat} (hj : j ≤ 255) (hy : ycl[j]? = some y) {C : Ctx} {u t : Term} (hC : y.atom = C.fill u)
    (hp : C.posOf ≤ 60000) (ht : ∀ w ∈ vars t, w < 4000)
    {rs s} (h : paraLits ev bank n st xcl x.addr ycl (encPath j C.posOf) t = .ok rs s) :
    Collected ev bank ((others x.addr xcl ++ setAtom ycl j y.neg (C.fill t)).map (Lit.subst θ)) rs := by
  simp only [paraLits, decLitnr_enc (show C.posOf < 65536 by omega), decPos_enc (show C.posOf < 65536 by omega),
    Nat.mod_eq_of_lt (show j < 256 by omega)] at h
  split at h
  · rename_i rs1 s1 e1
    obtain ⟨Nx, nx, hi1, _, hb1, hm1⟩ := optional_spec hd hx hwx BInv.init e1
    obtain ⟨Ls, Ns, names, h1, h2, h3, h4, h5, _⟩ := asmCl_spec hd
      (by rintro ln pos t' e; simp only [Option.some.injEq, Prod.mk.injEq] at e; rw [← e.2.2]; exact ht)
      ycl 0 rs1 s1 nx rs s hi1 hwy h
    rw [picked_para hy hC h1] at h4
    rw [List.map_append]
    exact ⟨names, Nx ++ Ns, h2.nodup, h2.le, (hb1.mono h3).append h4, hm1.append h5⟩
  · rename_i hne
    exact absurd h (hne rs s)

/-- a target is a proper position of the atom -/
theorem paraTargets_pos {j k : Nat} {a t : Term} {pos : Nat} (h : (paraTargets j a)[k]? = some (t, pos)) :
    j ≤ 255 ∧ NonVar t ∧ pos ≤ 60000 ∧ ∃ C : Ctx, a = C.fill t ∧ C.posOf = pos ∧ C ≠ .hole := by
  simp only [paraTargets] at h
  split at h
  · simp at h
  · rename_i hj
    obtain ⟨h1, h2, C, h3, h4, h5⟩ := (paraSubs_sound a 0 0).1 (t, pos) (List.mem_of_getElem? h)
    exact ⟨by omega, h1, h2, C, h3, by simpa using h4, h5 rfl⟩

theorem vars_fill {C : Ctx} {t : Term} : ∀ {v}, v ∈ vars t → v ∈ vars (C.fill t) := by
  intro v hv
  induction C with
  | hole => exact hv
  | app f pre C post ih =>
    simp only [Ctx.fill, vars_app]
    exact mem_varsL.2 ⟨C.fill t, by simp, ih⟩

theorem eqArgs_some {t a b : Term} (h : eqArgs t = some (a, b)) : ∃ rest, t = .app (.sym "=") (a :: b :: rest) := by
  unfold eqArgs at h
  split at h
  · split at h
    · rename_i hf
      simp only [Option.some.injEq, Prod.mk.injEq] at h
      obtain ⟨rfl, rfl⟩ := h
      exact ⟨_, by rw [hf]⟩
    · cases h
  · cases h

/-! ### clauses given up for too many variables -/

theorem asmCl_illegal {ev : Term → Option Term} (hev : ∀ t, ev t ≠ none) {bank : Nat} {b0 : Nat → Option Term}
    {θ : Nat → Term} (hd : Den b0 θ) {n : Nat} {a : Nat} :
    ∀ cl i rs s names, BInv b0 names s → (∀ l ∈ cl, ∀ w ∈ vars l.atom, w < 4000) →
      asmCl ev bank n (some a) none i rs s cl = .illegal →
      Over names (varsL (((others a cl).map (Lit.subst θ)).map Lit.atom)) := by
  intro cl
  induction cl with
  | nil => intro i rs s names _ _ h; simp [asmCl] at h
  | cons l ls ih =>
    intro i rs s names hi hw h
    simp only [asmCl] at h
    have hw' := fun k (hk : k ∈ ls) => hw k (List.mem_cons_of_mem _ hk)
    split at h
    · rename_i hc
      simp only [Option.some.injEq] at hc
      refine (ih (i + 1) rs s names hi hw' h).mono ?_
      intro v hv
      simpa [others, hc] using hv
    · rename_i hc
      simp only [Option.some.injEq] at hc
      have ho : others a (l :: ls) = l.lit :: others a ls := by
        simp [others, Ne.symm hc]
      rw [ho]
      simp only [asmAtom] at h
      split at h
      · cases h
      · rename_i eb
        refine (build_illegal hev hd n names s l.atom hi (hw l List.mem_cons_self) eb).mono ?_
        intro v hv
        rcases hv with hv | hv
        · exact .inl hv
        · exact .inr (by simp [Lit.subst, ALit.lit, hv])
      · rename_i a' s' eb
        obtain ⟨n1, hi1, hp1, hn1, hv1, hb1⟩ := build_spec hd n names s l.atom a' s' hi (hw l List.mem_cons_self) eb
        split at h
        · rename_i rs1 s1 es
          obtain ⟨rfl, _⟩ := asmStep_ok es
          refine (ih (i + 1) rs1 s1 n1 hi1 hw' h).mono ?_
          intro v hv
          rcases hv with hv | hv
          · rcases hb1 v hv with hv | hv
            · exact .inl hv
            · exact .inr (by simp [Lit.subst, ALit.lit, hv])
          · exact .inr (by simp only [List.map_cons, varsL_cons, List.mem_append]; exact .inr hv)
        · exact absurd h asmStep_cases.2

theorem varsL_append (as bs : List Term) : varsL (as ++ bs) = varsL as ++ varsL bs := by
  induction as with
  | nil => rfl
  | cons a as ih => simp [ih]

theorem resolveLits_illegal {ev : Term → Option Term} (hev : ∀ t, ev t ≠ none) {bank n : Nat} {st : St}
    {θ : Nat → Term} (hd : Den st.b θ) {xcl ycl : List ALit} {x y : ALit}
    (hwx : ∀ l ∈ xcl, ∀ w ∈ vars l.atom, w < 4000) (hwy : ∀ l ∈ ycl, ∀ w ∈ vars l.atom, w < 4000)
    (h : resolveLits ev bank n st xcl x.addr ycl y.addr = .illegal) :
    Over [] (varsL (((others x.addr xcl ++ others y.addr ycl).map (Lit.subst θ)).map Lit.atom)) := by
  simp only [resolveLits] at h
  split at h
  · cases h
  · split at h
    · rename_i rs1 s1 e1
      have key : ∃ nx, BInv st.b nx s1 ∧
          ∀ v ∈ nx, v ∈ varsL (((others x.addr xcl).map (Lit.subst θ)).map Lit.atom) := by
        split at e1
        · obtain ⟨Ls, Ns, names, h1, h2, h3, h4, h5, h6⟩ := asmCl_spec hd (by simp) xcl 0 [] ⟨st, 0⟩ [] rs1 s1 BInv.init hwx e1
          rw [picked_cut h1] at h6
          refine ⟨names, h2, ?_⟩
          intro v hv
          rcases h6 v hv with h | ⟨l, hl, hvl⟩
          · cases h
          · exact mem_varsL.2 ⟨l.atom, List.mem_map_of_mem hl, hvl⟩
        · simp only [Asm.ok.injEq] at e1
          obtain ⟨rfl, rfl⟩ := e1
          exact ⟨[], BInv.init, by simp⟩
      obtain ⟨nx, hi1, hv⟩ := key
      split at h
      · refine (asmCl_illegal hev hd ycl 0 rs1 s1 nx hi1 hwy h).mono ?_
        intro v hv'
        simp only [List.map_append, varsL_append, List.mem_append]
        rcases hv' with hv' | hv'
        · exact .inr (.inl (hv v hv'))
        · exact .inr (.inr hv')
      · cases h
    · split at h
      · refine (asmCl_illegal hev hd xcl 0 [] ⟨st, 0⟩ [] BInv.init hwx h).mono ?_
        intro v hv'
        simp only [List.map_append, varsL_append, List.mem_append]
        rcases hv' with hv' | hv'
        · cases hv'
        · exact .inr (.inl hv')
      · cases h

/-! ### paramodulants found to be always true -/

theorem Picked.append {θ : Nat → Term} {cut repl} : ∀ {i a b La Lb}, Picked θ cut repl i a La →
    Picked θ cut repl (i + a.length) b Lb → Picked θ cut repl i (a ++ b) (La ++ Lb) := by
  intro i a b La Lb h
  induction h with
  | nil => intro h2; simpa using h2
  | skip hc _ ih =>
    intro h2
    exact .skip hc (ih (by simpa [Nat.add_assoc, Nat.add_comm, Nat.add_left_comm] using h2))
  | take hc hi _ ih =>
    intro h2
    exact .take hc hi (ih (by simpa [Nat.add_assoc, Nat.add_comm, Nat.add_left_comm] using h2))

theorem picked_exists {θ : Nat → Term} {cut : Option Nat} {repl} : ∀ (cl : List ALit) (i : Nat),
    (∀ m y, cl[m]? = some y → ∃ inst, InstOf θ repl (i + m) y.atom inst) → ∃ Ls, Picked θ cut repl i cl Ls := by
  intro cl
  induction cl with
  | nil => intro i _; exact ⟨[], .nil⟩
  | cons l ls ih =>
    intro i h
    obtain ⟨Ls, hL⟩ := ih (i + 1) (fun m y hy => by
      have := h (m + 1) y (by simpa using hy)
      simpa [Nat.add_assoc, Nat.add_comm, Nat.add_left_comm] using this)
    by_cases hc : cut = some l.addr
    · exact ⟨Ls, .skip hc hL⟩
    · obtain ⟨inst, hi⟩ := h 0 l (by simp)
      exact ⟨_, .take hc (by simpa using hi) hL⟩

theorem paraLits_taut {ev : Term → Option Term} {bank n : Nat} {st : St} {θ : Nat → Term} (hd : Den st.b θ)
    {xcl ycl : List ALit} {x y : ALit} (hx : x ∈ xcl)
    (hwx : ∀ l ∈ xcl, ∀ w ∈ vars l.atom, w < 4000) (hwy : ∀ l ∈ ycl, ∀ w ∈ vars l.atom, w < 4000)
    {j : Nat} (hj : j ≤ 255) (hy : ycl[j]? = some y) {C : Ctx} {u t : Term} (hC : y.atom = C.fill u)
    (hp : C.posOf ≤ 60000) (ht : ∀ w ∈ vars t, w < 4000)
    (h : paraLits ev bank n st xcl x.addr ycl (encPath j C.posOf) t = .taut) :
    CollectedTaut ev bank ((others x.addr xcl ++ setAtom ycl j y.neg (C.fill t)).map (Lit.subst θ)) := by
  simp only [paraLits, decLitnr_enc (show C.posOf < 65536 by omega), decPos_enc (show C.posOf < 65536 by omega),
    Nat.mod_eq_of_lt (show j < 256 by omega)] at h
  split at h
  · rename_i rs1 s1 e1
    obtain ⟨Nx, nx, hi1, _, hb1, hm1⟩ := optional_spec hd hx hwx BInv.init e1
    obtain ⟨pre, post, Ls, Ns, n2, e, hP, hp2, hnd, hB, l, hl, hT⟩ := asmCl_taut hd
      (by rintro ln pos t' e; simp only [Option.some.injEq, Prod.mk.injEq] at e; rw [← e.2.2]; exact ht)
      ycl 0 rs1 s1 nx hi1 hwy h
    obtain ⟨Lp, hLp⟩ := picked_exists (θ := θ) (cut := none) (repl := some (j, C.posOf, t)) post (0 + pre.length) (by
      intro m z hz
      simp only [InstOf]
      split
      · rename_i em
        have : ycl[j]? = some z := by
          rw [e, List.getElem?_append_right (by omega), ← em]
          simpa using hz
        rw [hy] at this
        simp only [Option.some.injEq] at this
        subst this
        exact ⟨_, .inl ⟨C, u, hC, rfl, rfl⟩⟩
      · exact ⟨_, rfl⟩)
    have hall := hP.append hLp
    rw [← e] at hall
    have hLs := picked_para hy hC hall
    refine ⟨(others x.addr xcl).map (Lit.subst θ) ++ Ls, n2, Nx ++ Ns, hnd, ?_, (hb1.mono hp2).append hB, l,
      List.mem_append_right _ hl, ?_⟩
    · intro k hk
      rw [List.map_append]
      rcases List.mem_append.1 hk with hk | hk
      · exact List.mem_append_left _ hk
      · exact List.mem_append_right _ (by rw [← hLs]; exact List.mem_append_left _ hk)
    · rcases hT with h | ⟨k, hk, h⟩
      · exact .inl h
      · refine .inr ⟨k, ?_, h⟩
        rcases hk with hk | hk
        · rcases hm1.only k hk with hk | hk
          · cases hk
          · exact List.mem_append_left _ hk
        · exact List.mem_append_right _ hk
  · split at h
    · obtain ⟨pre, post, Ls, Ns, n2, e, hP, hp2, hnd, hB, l, hl, hT⟩ := asmCl_taut hd (by simp)
        xcl 0 [] ⟨st, 0⟩ [] BInv.init hwx h
      refine ⟨Ls, n2, Ns, hnd, ?_, hB, l, hl, ?_⟩
      · intro k hk
        rw [List.map_append]
        apply List.mem_append_left
        rw [e]
        exact picked_pre hP k hk
      · rcases hT with h | ⟨k, hk, h⟩
        · exact .inl h
        · rcases hk with hk | hk
          · cases hk
          · exact .inr ⟨k, hk, h⟩
    · cases h

/-- replacing a proper subterm by one that stands for the same object -/
theorem fill_eval_pi {I : Interp} {E : Type} {π : I.D → E}
    (hf : ∀ f as bs, as.map π = bs.map π → I.fn f as = I.fn f bs) {ρ : Nat → I.D} {a b : Term}
    (h : π (eval I ρ a) = π (eval I ρ b)) : ∀ C : Ctx, π (eval I ρ (C.fill a)) = π (eval I ρ (C.fill b)) ∧
      (C ≠ .hole → eval I ρ (C.fill a) = eval I ρ (C.fill b))
  | .hole => ⟨h, fun h => absurd rfl h⟩
  | .app f pre c post => by
    have : eval I ρ (Ctx.fill (.app f pre c post) a) = eval I ρ (Ctx.fill (.app f pre c post) b) := by
      simp only [Ctx.fill, eval, evalL_eq_map, List.map_append, List.map_cons]
      apply hf
      simp only [List.map_append, List.map_cons, (fill_eval_pi hf h c).1]
    exact ⟨by rw [this], fun _ => this⟩

end Gkc
