import Verif.FrmLemmas
import Verif.Props.Miniscope
/-
Lemmas about the bookkeeping of Skolemisation.
-/
namespace Gkc.Clausify

theorem toString_nat_inj {a b : Nat} (h : toString a = toString b) : a = b := by
  have h' : Nat.toDigits 10 a = Nat.toDigits 10 b := by
    have : Nat.repr a = Nat.repr b := h
    have := congrArg String.toList this
    simpa [Nat.repr] using this
  rw [← Nat.ofDigitChars_ten_toDigits (n := a), h', Nat.ofDigitChars_ten_toDigits]

theorem skName_inj {a b : Nat} (h : skName a = skName b) : a = b := by
  simp only [skName, uri, Nm.mk.injEq, true_and] at h
  exact toString_nat_inj ((String.append_right_inj _).1 h)
theorem newVar_inj {a b : Nat} (h : newVar a = newVar b) : a = b := by
  simp only [newVar, varN, Nm.mk.injEq, true_and] at h
  exact toString_nat_inj ((String.append_right_inj _).1 h)
theorem newVar_ty (k : Nat) : (newVar k).ty = 14 := rfl
theorem skName_ty (k : Nat) : (skName k).ty = 7 := rfl

/-! ### Appending to the list of values -/

/-- both forms of wr_clausify_append_vars -/
def appendG (mk : Nat → FT) : Assoc → Nat → List Nm → Option (Assoc × Nat)
  | A, k, [] => some (A, k)
  | A, k, v :: vs => if okVar v then appendG mk ((v, mk (k + 1)) :: A) (k + 1) vs else none

theorem appendAll_eq : ∀ (vs : List Nm) (A : Assoc) (k : Nat),
    appendAll A k vs = appendG (fun k => .nm (newVar k)) A k vs
  | [], A, k => rfl
  | v :: vs, A, k => by
    simp only [appendAll, appendG]; rw [appendAll_eq vs]

theorem appendEx_eq (us : List FT) : ∀ (vs : List Nm) (A : Assoc) (k : Nat),
    appendEx us A k vs = appendG (fun k => skTerm k us) A k vs
  | [], A, k => rfl
  | v :: vs, A, k => by
    simp only [appendEx, appendG]; rw [appendEx_eq us vs]

theorem look_cons {A : Assoc} {v : Nm} {t : FT} {n : Nm} (hv : okVar v = true) :
    look ((v, t) :: A) n = if v = n then some t else look A n := by
  unfold look
  by_cases e : v = n
  · subst e
    simp only [okVar, Bool.or_eq_true, beq_iff_eq] at hv
    rw [if_pos hv]
    simp
  · by_cases hn : n.ty = 7 ∨ n.ty = 14
    · rw [if_pos hn, if_pos hn, if_neg e]
      simp [e]
    · rw [if_neg hn, if_neg hn, if_neg e]

theorem look_mem {A : Assoc} {n : Nm} {t : FT} (h : look A n = some t) : (n, t) ∈ A ∧ okVar n = true := by
  unfold look at h
  split at h
  · rename_i hn
    obtain ⟨p, hp, rfl⟩ := Option.map_eq_some_iff.1 h
    have := List.mem_of_find?_eq_some hp
    have e := List.find?_some hp
    simp only [decide_eq_true_eq] at e
    subst e
    exact ⟨this, by simpa [okVar] using hn⟩
  · cases h

/-- what appending does -/
structure AppendOk (mk : Nat → FT) (A : Assoc) (k : Nat) (vs : List Nm) (A' : Assoc) (k' : Nat) : Prop where
  cnt : k' = k + vs.length
  plain : ∀ v ∈ vs, okVar v = true
  old : ∀ n, n ∉ vs → look A' n = look A n
  new : ∀ n ∈ vs, ∃ i, vs[i]? = some n ∧ look A' n = some (mk (k + 1 + i))
  mem : ∀ p ∈ A', p ∈ A ∨ p.1 ∈ vs ∧ ∃ i, i < vs.length ∧ p.2 = mk (k + 1 + i)
  sub : ∀ p ∈ A, p ∈ A'

theorem appendG_ok (mk : Nat → FT) : ∀ (vs : List Nm) (A : Assoc) (k : Nat) (A' : Assoc) (k' : Nat),
    appendG mk A k vs = some (A', k') → AppendOk mk A k vs A' k'
  | [], A, k, A', k', h => by
    simp only [appendG, Option.some.injEq, Prod.mk.injEq] at h
    obtain ⟨rfl, rfl⟩ := h
    exact ⟨rfl, by simp, fun _ _ => rfl, by simp, fun p h => .inl h, fun p h => h⟩
  | v :: vs, A, k, A', k', h => by
    simp only [appendG] at h
    split at h
    · rename_i hv
      have ih := appendG_ok mk vs _ _ _ _ h
      refine ⟨by rw [ih.cnt]; simp; omega, ?_, ?_, ?_, ?_, ?_⟩
      · intro u hu
        rcases List.mem_cons.1 hu with rfl | hu
        · exact hv
        · exact ih.plain u hu
      · intro n hn
        simp only [List.mem_cons, not_or] at hn
        rw [ih.old n hn.2, look_cons hv, if_neg (fun e => hn.1 e.symm)]
      · intro n hn
        by_cases hm : n ∈ vs
        · obtain ⟨i, h1, h2⟩ := ih.new n hm
          exact ⟨i + 1, by simpa using h1, by rw [h2]; congr 2; omega⟩
        · rcases List.mem_cons.1 hn with rfl | hn
          · exact ⟨0, by simp, by rw [ih.old n hm, look_cons hv, if_pos rfl]⟩
          · exact absurd hn hm
      · intro p hp
        rcases ih.mem p hp with hp | ⟨hp, i, hi, e⟩
        · rcases List.mem_cons.1 hp with rfl | hp
          · exact .inr ⟨by simp, 0, by simp, rfl⟩
          · exact .inl hp
        · exact .inr ⟨by simp [hp], i + 1, by simp [hi], by rw [e, Nat.add_assoc (k + 1) 1 i, Nat.add_comm 1 i]⟩
      · intro p hp
        exact ih.sub p (List.mem_cons_of_mem _ hp)
    · cases h

/-! ### Values -/

/-- the list of values is well formed: new variables with numbers in `V` and Skolem terms over them -/
structure AOk (A : Assoc) (V : Nat → Prop) (sn : Nat) : Prop where
  val : ∀ n t, (n, t) ∈ A → (∃ k, V k ∧ t = .nm (newVar k)) ∨
    ∃ k us, k ≤ sn ∧ t = skTerm k us ∧ ∀ u ∈ us, u ∈ univs A
  
theorem mem_univs {A : Assoc} {u : FT} : u ∈ univs A ↔ ∃ n m, (n, FT.nm m) ∈ A ∧ m.ty = 14 ∧ u = .nm m := by
  simp only [univs, List.mem_reverse, List.mem_filterMap]
  constructor
  · rintro ⟨⟨n, t⟩, h, e⟩
    cases t with
    | nm m =>
      simp only at e
      split at e
      · rename_i hm
        simp only [Option.some.injEq] at e
        exact ⟨n, m, h, hm, e.symm⟩
      · cases e
    | app f as => cases e
  · rintro ⟨n, m, h, hm, rfl⟩
    exact ⟨(n, .nm m), h, by simp [hm]⟩

theorem skTerm_nm {k : Nat} {us : List FT} {m : Nm} (h : skTerm k us = .nm m) : m = skName k := by
  unfold skTerm at h
  split at h
  · simp only [FT.nm.injEq] at h
    exact h.symm
  · cases h

theorem AOk.univs {A : Assoc} {V : Nat → Prop} {sn : Nat} (h : AOk A V sn) {u : FT} (hu : u ∈ univs A) :
    ∃ k, V k ∧ u = .nm (newVar k) := by
  obtain ⟨n, m, h1, h2, rfl⟩ := mem_univs.1 hu
  rcases h.val n _ h1 with ⟨k, hk, e⟩ | ⟨k, us, hk, e, _⟩
  · exact ⟨k, hk, e⟩
  · rw [skTerm_nm e.symm, skName_ty] at h2
    cases h2

theorem univs_mono {A A' : Assoc} (h : ∀ p ∈ A, p ∈ A') {u : FT} (hu : u ∈ univs A) : u ∈ univs A' := by
  obtain ⟨n, m, h1, h2, rfl⟩ := mem_univs.1 hu
  exact mem_univs.2 ⟨n, m, h _ h1, h2, rfl⟩

theorem AOk.mono {A : Assoc} {V : Nat → Prop} {sn sn' : Nat} (h : AOk A V sn) (hs : sn ≤ sn') : AOk A V sn' :=
  ⟨fun n t hm => (h.val n t hm).imp id
    (fun ⟨k, us, a, b, c⟩ => ⟨k, us, Nat.le_trans a hs, b, c⟩)⟩

theorem AOk.all {A A' : Assoc} {V : Nat → Prop} {vn sn k' : Nat} {vs : List Nm} (h : AOk A V sn)
    (ok : AppendOk (fun k => .nm (newVar k)) A vn vs A' k') : AOk A' (fun k => V k ∨ vn < k ∧ k ≤ k') sn := by
  refine ⟨fun n t hm => ?_⟩
  rcases ok.mem _ hm with hm | ⟨_, i, hi, e⟩
  · rcases h.val n t hm with ⟨k, hk, e⟩ | ⟨k, us, hk, e, hu⟩
    · exact .inl ⟨k, .inl hk, e⟩
    · exact .inr ⟨k, us, hk, e, fun u h => univs_mono ok.sub (hu u h)⟩
  · exact .inl ⟨_, .inr (by rw [ok.cnt]; omega), e⟩

theorem AOk.ex {A A' : Assoc} {V : Nat → Prop} {sn k' : Nat} {vs : List Nm} (h : AOk A V sn)
    (ok : AppendOk (fun k => skTerm k (Clausify.univs A)) A sn vs A' k') : AOk A' V k' := by
  refine ⟨fun n t hm => ?_⟩
  rcases ok.mem _ hm with hm | ⟨_, i, hi, e⟩
  · rcases h.val n t hm with ⟨k, hk, e⟩ | ⟨k, us, hk, e, hu⟩
    · exact .inl ⟨k, hk, e⟩
    · exact .inr ⟨k, us, by rw [ok.cnt]; omega, e, fun u h => univs_mono ok.sub (hu u h)⟩
  · exact .inr ⟨_, _, by rw [ok.cnt]; omega, e, fun u h => univs_mono ok.sub h⟩

section
variable {D : Type}

/-- the assignment behind a list of values -/
def Aenv (I : FInt D) (ρ : Nm → D) (A : Assoc) : Nm → D := fun n =>
  match look A n with
  | some t => I.ev ρ t
  | none => ρ n

mutual
theorem repl_ok {A : Assoc} : ∀ (t : FT), (∀ n ∈ headsT t, look A n = none) →
    ∃ t', repl A t = some t' ∧ (∀ (I : FInt D) (ρ : Nm → D), I.ev ρ t' = I.ev (Aenv I ρ A) t)
  | .nm n, _ => by
    refine ⟨_, rfl, fun I ρ => ?_⟩
    simp only [FInt.ev, Aenv]
    cases look A n <;> rfl
  | .app f as, h => by
    obtain ⟨as', e, s⟩ := replL_ok as (fun n hn => h n (by simp [headsT, hn]))
    refine ⟨.app f as', by simp [repl, h f (by simp [headsT]), e], fun I ρ => ?_⟩
    simp only [FInt.ev, s]
theorem replL_ok {A : Assoc} : ∀ (ts : List FT), (∀ n ∈ headsTL ts, look A n = none) →
    ∃ ts', replL A ts = some ts' ∧ (∀ (I : FInt D) (ρ : Nm → D), I.evL ρ ts' = I.evL (Aenv I ρ A) ts)
  | [], _ => ⟨[], rfl, fun _ _ => rfl⟩
  | a :: as, h => by
    obtain ⟨a', e1, s1⟩ := repl_ok a (fun n hn => h n (by simp [headsTL, hn]))
    obtain ⟨as', e2, s2⟩ := replL_ok as (fun n hn => h n (by simp [headsTL, hn]))
    refine ⟨a' :: as', by simp [replL, e1, e2], fun I ρ => ?_⟩
    simp only [FInt.evL, s1, s2]
end

mutual
/-- names after replacing -/
theorem repl_names {A : Assoc} {m : Nm} : ∀ (t t' : FT), (∀ n ∈ headsT t, look A n = none) → repl A t = some t' →
    m ∈ namesT t' → (m ∈ namesT t ∧ look A m = none) ∨ (m ∈ headsT t) ∨
      ∃ n s, look A n = some s ∧ m ∈ namesT s
  | .nm n, t', _, h, hm => by
    simp only [repl, Option.some.injEq] at h
    subst h
    cases e : look A n with
    | none =>
      rw [e] at hm
      simp only [Option.getD_none, namesT, List.mem_singleton] at hm
      subst hm
      exact .inl ⟨by simp [namesT], e⟩
    | some s =>
      rw [e] at hm
      exact .inr (.inr ⟨n, s, e, hm⟩)
  | .app f as, t', hh, h, hm => by
    simp only [repl, hh f (by simp [headsT])] at h
    obtain ⟨as', e, rfl⟩ := Option.map_eq_some_iff.1 h
    simp only [namesT, List.mem_cons] at hm
    rcases hm with rfl | hm
    · exact .inr (.inl (by simp [headsT]))
    · rcases replL_names as as' (fun n hn => hh n (by simp [headsT, hn])) e hm with h | h | h
      · exact .inl ⟨by simp [namesT, h.1], h.2⟩
      · exact .inr (.inl (by simp [headsT, h]))
      · exact .inr (.inr h)
theorem replL_names {A : Assoc} {m : Nm} : ∀ (ts ts' : List FT), (∀ n ∈ headsTL ts, look A n = none) →
    replL A ts = some ts' → m ∈ namesTL ts' → (m ∈ namesTL ts ∧ look A m = none) ∨ (m ∈ headsTL ts) ∨
      ∃ n s, look A n = some s ∧ m ∈ namesT s
  | [], ts', _, h, hm => by
    simp only [replL, Option.some.injEq] at h
    subst h
    simp [namesTL] at hm
  | a :: as, ts', hh, h, hm => by
    simp only [replL] at h
    obtain ⟨a', e1, h⟩ := Option.bind_eq_some_iff.1 h
    obtain ⟨as', e2, rfl⟩ := Option.map_eq_some_iff.1 h
    simp only [namesTL, List.mem_append] at hm
    rcases hm with hm | hm
    · rcases repl_names a a' (fun n hn => hh n (by simp [headsTL, hn])) e1 hm with h | h | h
      · exact .inl ⟨by simp [namesTL, h.1], h.2⟩
      · exact .inr (.inl (by simp [headsTL, h]))
      · exact .inr (.inr h)
    · rcases replL_names as as' (fun n hn => hh n (by simp [headsTL, hn])) e2 hm with h | h | h
      · exact .inl ⟨by simp [namesTL, h.1], h.2⟩
      · exact .inr (.inl (by simp [headsTL, h]))
      · exact .inr (.inr h)
end

/-- value of a Skolem term from the values of its arguments -/
def skval (I : FInt D) (ρ : Nm → D) (k : Nat) (ds : List D) : D :=
  if ds.isEmpty then ρ (skName k) else I.fn (skName k) ds

theorem evL_isEmpty (I : FInt D) (ρ : Nm → D) (us : List FT) : (I.evL ρ us).isEmpty = us.isEmpty := by
  cases us <;> rfl

theorem ev_skTerm (I : FInt D) (ρ : Nm → D) (k : Nat) (us : List FT) :
    I.ev ρ (skTerm k us) = skval I ρ k (I.evL ρ us) := by
  unfold skTerm skval
  rw [evL_isEmpty]
  split <;> simp [FInt.ev]

theorem evL_map (I : FInt D) (ρ : Nm → D) : ∀ us : List FT, I.evL ρ us = us.map (I.ev ρ)
  | [] => rfl
  | u :: us => by simp [FInt.evL, evL_map I ρ us]

/-- values change only with what they are made of -/
theorem AOk.ev {A : Assoc} {V : Nat → Prop} {sn : Nat} (h : AOk A V sn) {I J : FInt D} {ρ σ : Nm → D}
    (h1 : ∀ k, k ≤ sn → I.fn (skName k) = J.fn (skName k)) (h2 : ∀ k, k ≤ sn → ρ (skName k) = σ (skName k))
    (h3 : ∀ u ∈ Clausify.univs A, I.ev ρ u = J.ev σ u) {n : Nm} {t : FT} (ht : look A n = some t) :
    I.ev ρ t = J.ev σ t := by
  have hm := (look_mem ht).1
  rcases h.val n t hm with ⟨k, hk, rfl⟩ | ⟨k, us, hk, rfl, hu⟩
  · exact h3 _ (mem_univs.2 ⟨n, _, hm, newVar_ty k, rfl⟩)
  · rw [ev_skTerm, ev_skTerm]
    have e : I.evL ρ us = J.evL σ us := by
      rw [evL_map, evL_map]
      exact List.map_congr_left (fun u hu' => h3 u (hu u hu'))
    rw [e]
    unfold skval
    rw [h1 k hk, h2 k hk]

/-- names of values -/
theorem AOk.names {A : Assoc} {V : Nat → Prop} {sn : Nat} (h : AOk A V sn) {n m : Nm} {t : FT} (ht : look A n = some t)
    (hm : m ∈ namesT t) : (∃ k, V k ∧ m = newVar k) ∨ ∃ k, k ≤ sn ∧ m = skName k := by
  rcases h.val n t (look_mem ht).1 with ⟨k, hk, rfl⟩ | ⟨k, us, hk, rfl, hu⟩
  · simp only [namesT, List.mem_singleton] at hm
    exact .inl ⟨k, hk, hm⟩
  · unfold skTerm at hm
    split at hm
    · simp only [namesT, List.mem_singleton] at hm
      exact .inr ⟨k, hk, hm⟩
    · simp only [namesT, List.mem_cons] at hm
      rcases hm with hm | hm
      · exact .inr ⟨k, hk, hm⟩
      · have : ∀ us : List FT, (∀ u ∈ us, u ∈ Clausify.univs A) → m ∈ namesTL us → ∃ u ∈ us, m ∈ namesT u := by
          intro us
          induction us with
          | nil => intro _ h; simp [namesTL] at h
          | cons u us ih =>
            intro hu h
            simp only [namesTL, List.mem_append] at h
            rcases h with h | h
            · exact ⟨u, by simp, h⟩
            · obtain ⟨w, hw, h⟩ := ih (fun u h => hu u (by simp [h])) h
              exact ⟨w, by simp [hw], h⟩
        obtain ⟨u, hu', hm⟩ := this us hu hm
        obtain ⟨k, hk, rfl⟩ := h.univs (hu u hu')
        simp only [namesT, List.mem_singleton] at hm
        exact .inl ⟨k, hk, hm⟩
end

end Gkc.Clausify
