import Verif.Clausify
/-
C26: pushing negations inwards.
-/
namespace Gkc.Props
open Gkc.Clausify

mutual
/-- negation normal form: and, or and quantifiers over atoms and negated atoms -/
def Nnf : Frm → Prop
  | .at _ => True
  | .neg (.at _) => True
  | .neg _ => False
  | .and fs => NnfL fs
  | .or fs => NnfL fs
  | .all _ f => Nnf f
  | .ex _ f => Nnf f
  | .imp _ => False
  | .eqv _ _ => False
  | .par _ => False
/-- all in negation normal form -/
def NnfL : List Frm → Prop
  | [] => True
  | f :: fs => Nnf f ∧ NnfL fs
end

mutual
/-- and, or and implication have at least two arguments (what the parsers build) -/
def Args2 : Frm → Prop
  | .at _ => True
  | .neg f => Args2 f
  | .and fs => 2 ≤ fs.length ∧ Args2L fs
  | .or fs => 2 ≤ fs.length ∧ Args2L fs
  | .imp fs => 2 ≤ fs.length ∧ Args2L fs
  | .eqv a b => Args2 a ∧ Args2 b
  | .all _ f => Args2 f
  | .ex _ f => Args2 f
  | .par f => Args2 f
/-- for all -/
def Args2L : List Frm → Prop
  | [] => True
  | f :: fs => Args2 f ∧ Args2L fs
end

/-- truth as asked by the sign -/
def Sgn (sign : Bool) (P : Prop) : Prop := if sign then P else ¬ P

section
variable {D : Type} (I : FInt D)

theorem holdsAll_iff (ρ : Nm → D) : ∀ fs, I.holdsAll ρ fs ↔ ∀ f ∈ fs, I.holds ρ f
  | [] => by simp [FInt.holdsAll]
  | f :: fs => by simp [FInt.holdsAll, holdsAll_iff ρ fs]

theorem holdsAny_iff (ρ : Nm → D) : ∀ fs, I.holdsAny ρ fs ↔ ∃ f ∈ fs, I.holds ρ f
  | [] => by simp [FInt.holdsAny]
  | f :: fs => by simp [FInt.holdsAny, holdsAny_iff ρ fs]

theorem holds_junct (b : Bool) (fs : List Frm) (ρ : Nm → D) :
    I.holds ρ (junct b fs) ↔ if b then ∀ f ∈ fs, I.holds ρ f else ∃ f ∈ fs, I.holds ρ f := by
  cases b
  · simp [junct, FInt.holds, holdsAny_iff]
  · simp [junct, FInt.holds, holdsAll_iff]

theorem holds_quant (b : Bool) (vs : List Nm) (f : Frm) (ρ : Nm → D) :
    I.holds ρ (quant b vs f) ↔ if b then ∀ ρ', Variant vs ρ ρ' → I.holds ρ' f
      else ∃ ρ', Variant vs ρ ρ' ∧ I.holds ρ' f := by
  cases b
  · simp [quant, FInt.holds]
  · simp [quant, FInt.holds]

theorem Nnf_junct (b : Bool) (fs : List Frm) : Nnf (junct b fs) ↔ NnfL fs := by
  cases b <;> simp [junct, Nnf]
theorem NnfL_iff : ∀ fs, NnfL fs ↔ ∀ f ∈ fs, Nnf f
  | [] => by simp [NnfL]
  | f :: fs => by simp [NnfL, NnfL_iff fs]
theorem Nnf_quant (b : Bool) (vs : List Nm) (f : Frm) : Nnf (quant b vs f) ↔ Nnf f := by
  cases b <;> simp [quant, Nnf]

mutual
theorem negpush_sem (sign : Bool) : ∀ (f g : Frm), negpush sign f = some g →
    Nnf g ∧ ∀ ρ : Nm → D, I.holds ρ g ↔ Sgn sign (I.holds ρ f)
  | .at t, g, h => by
    simp only [negpush, Option.some.injEq] at h
    subst h
    cases sign <;> simp [Nnf, Sgn, FInt.holds]
  | .par f, g, h => by
    simp only [negpush] at h
    obtain ⟨h1, h2⟩ := negpush_sem sign f g h
    exact ⟨h1, fun ρ => by simpa [FInt.holds] using h2 ρ⟩
  | .neg f, g, h => by
    rw [negpush.eq_def] at h
    simp only at h
    split at h
    · simp only [Option.some.injEq] at h
      subst h
      cases sign <;> simp [Nnf, Sgn, FInt.holds]
    · obtain ⟨h1, h2⟩ := negpush_sem (!sign) f g h
      refine ⟨h1, fun ρ => ?_⟩
      rw [h2 ρ]
      cases sign <;> simp [Sgn, FInt.holds]
  | .and fs, g, h => by
    simp only [negpush] at h
    split at h
    · cases h
    · obtain ⟨gs, h', rfl⟩ := Option.map_eq_some_iff.1 h
      obtain ⟨h1, h2⟩ := negpushL_sem sign fs gs h'
      refine ⟨by rw [Nnf_junct, NnfL_iff]; simpa using h1, fun ρ => ?_⟩
      obtain ⟨ha, hb⟩ := h2 ρ
      rw [holds_junct]
      cases sign
      · simp [Sgn, FInt.holds] at hb ⊢
        rw [hb, holdsAll_iff]; simp
      · simp [Sgn, FInt.holds] at ha ⊢
        rw [ha, holdsAll_iff]
  | .or fs, g, h => by
    simp only [negpush] at h
    split at h
    · cases h
    · obtain ⟨gs, h', rfl⟩ := Option.map_eq_some_iff.1 h
      obtain ⟨h1, h2⟩ := negpushL_sem sign fs gs h'
      refine ⟨by rw [Nnf_junct, NnfL_iff]; simpa using h1, fun ρ => ?_⟩
      obtain ⟨ha, hb⟩ := h2 ρ
      rw [holds_junct]
      cases sign
      · simp [Sgn, FInt.holds] at ha ⊢
        rw [ha, holdsAny_iff]; simp
      · simp [Sgn, FInt.holds] at hb ⊢
        rw [hb, holdsAny_iff]
  | .imp fs, g, h => by
    simp only [negpush] at h
    split at h
    · cases h
    · rename_i hl
      obtain ⟨gs, h', rfl⟩ := Option.map_eq_some_iff.1 h
      obtain ⟨h1, h2⟩ := negpushI_sem sign fs gs h'
      refine ⟨by rw [Nnf_junct, NnfL_iff]; simpa using h1, fun ρ => ?_⟩
      have hb := h2 ρ (by intro e; subst e; simp at hl)
      rw [holds_junct]
      cases sign
      · simp [Sgn, FInt.holds] at hb ⊢
        exact hb
      · simp [Sgn, FInt.holds] at hb ⊢
        exact hb
  | .all vs f, g, h => by
    simp only [negpush] at h
    obtain ⟨g', h', rfl⟩ := Option.map_eq_some_iff.1 h
    obtain ⟨h1, h2⟩ := negpush_sem sign f g' h'
    refine ⟨(Nnf_quant _ _ _).2 h1, fun ρ => ?_⟩
    rw [holds_quant]
    cases sign
    · simp [Sgn, FInt.holds, h2]
    · simp [Sgn, FInt.holds, h2]
  | .ex vs f, g, h => by
    simp only [negpush] at h
    obtain ⟨g', h', rfl⟩ := Option.map_eq_some_iff.1 h
    obtain ⟨h1, h2⟩ := negpush_sem sign f g' h'
    refine ⟨(Nnf_quant _ _ _).2 h1, fun ρ => ?_⟩
    rw [holds_quant]
    cases sign
    · simp [Sgn, FInt.holds, h2]
    · simp [Sgn, FInt.holds, h2]
  | .eqv a b, g, h => by
    simp only [negpush] at h
    obtain ⟨r1, e1, h⟩ := Option.bind_eq_some_iff.1 h
    obtain ⟨r2, e2, h⟩ := Option.bind_eq_some_iff.1 h
    obtain ⟨r3, e3, h⟩ := Option.bind_eq_some_iff.1 h
    obtain ⟨r4, e4, rfl⟩ := Option.map_eq_some_iff.1 h
    obtain ⟨n1, s1⟩ := negpush_sem (!sign) a r1 e1
    obtain ⟨n2, s2⟩ := negpush_sem sign b r2 e2
    obtain ⟨n3, s3⟩ := negpush_sem sign a r3 e3
    obtain ⟨n4, s4⟩ := negpush_sem (!sign) b r4 e4
    refine ⟨by simp [Nnf_junct, NnfL, *], fun ρ => ?_⟩
    rw [holds_junct]
    simp only [List.mem_cons, List.not_mem_nil, or_false, forall_eq_or_imp, forall_eq, exists_eq_or_imp,
      exists_eq_left, holds_junct, s1, s2, s3, s4]
    cases sign
    · simp [Sgn, FInt.holds]
      by_cases ha : I.holds ρ a <;> by_cases hb : I.holds ρ b <;> simp [ha, hb]
    · simp [Sgn, FInt.holds]
      by_cases ha : I.holds ρ a <;> by_cases hb : I.holds ρ b <;> simp [ha, hb]
theorem negpushL_sem (sign : Bool) : ∀ (fs gs : List Frm), negpushL sign fs = some gs →
    (∀ g ∈ gs, Nnf g) ∧ ∀ ρ : Nm → D, ((∀ g ∈ gs, I.holds ρ g) ↔ ∀ f ∈ fs, Sgn sign (I.holds ρ f)) ∧
      ((∃ g ∈ gs, I.holds ρ g) ↔ ∃ f ∈ fs, Sgn sign (I.holds ρ f))
  | [], gs, h => by
    simp only [negpushL, Option.some.injEq] at h
    subst h; simp
  | f :: fs, gs, h => by
    simp only [negpushL] at h
    obtain ⟨g, e, h⟩ := Option.bind_eq_some_iff.1 h
    obtain ⟨gs, h', rfl⟩ := Option.map_eq_some_iff.1 h
    obtain ⟨n1, s1⟩ := negpush_sem sign f g e
    obtain ⟨n2, s2⟩ := negpushL_sem sign fs gs h'
    refine ⟨by simp; exact ⟨n1, n2⟩, fun ρ => ?_⟩
    obtain ⟨ha, hb⟩ := s2 ρ
    simp only [List.mem_cons, forall_eq_or_imp, exists_eq_or_imp, s1, ha, hb]
    simp
theorem negpushI_sem (sign : Bool) : ∀ (fs gs : List Frm), negpushI sign fs = some gs →
    (∀ g ∈ gs, Nnf g) ∧ ∀ ρ : Nm → D, fs ≠ [] →
      ((if (!sign) = true then ∀ g ∈ gs, I.holds ρ g else ∃ g ∈ gs, I.holds ρ g) ↔ Sgn sign (I.holdsImp ρ fs))
  | [], gs, h => by
    simp only [negpushI, Option.some.injEq] at h
    subst h; simp
  | [f], gs, h => by
    simp only [negpushI] at h
    obtain ⟨g, e, rfl⟩ := Option.map_eq_some_iff.1 h
    obtain ⟨n1, s1⟩ := negpush_sem sign f g e
    refine ⟨by simpa using n1, fun ρ _ => ?_⟩
    have := s1 ρ
    cases sign <;> simp [Sgn, FInt.holdsImp] at this ⊢ <;> exact this
  | f :: f' :: fs, gs, h => by
    rw [negpushI] at h
    obtain ⟨g, e, h⟩ := Option.bind_eq_some_iff.1 h
    obtain ⟨gs, h', rfl⟩ := Option.map_eq_some_iff.1 h
    obtain ⟨n1, s1⟩ := negpush_sem (!sign) f g e
    obtain ⟨n2, s2⟩ := negpushI_sem sign (f' :: fs) gs h'
    refine ⟨by simp; exact ⟨n1, n2⟩, fun ρ _ => ?_⟩
    have hs := s2 ρ (by simp)
    have h1 := s1 ρ
    rw [FInt.holdsImp]
    cases sign
    · simp [Sgn] at hs h1 ⊢
      rw [hs, h1]
    · simp [Sgn] at hs h1 ⊢
      rw [hs, h1]
      exact ⟨fun h hf => h.resolve_left (fun hn => hn hf), fun h => by
        by_cases hf : I.holds ρ f
        · exact .inr (h hf)
        · exact .inl hf⟩
end
end

/-- C26.  Pushing negations inwards gives a formula in negation normal form that is true exactly when
the input is (or, when the negation is asked for, exactly when the input is false), in every
interpretation and under every assignment. -/
theorem C26_negpush_equivalent {D : Type} (I : FInt D) (ρ : Nm → D) (sign : Bool) (f g : Frm)
    (h : negpush sign f = some g) : Nnf g ∧ (I.holds ρ g ↔ if sign then I.holds ρ f else ¬ I.holds ρ f) :=
  ⟨(negpush_sem I sign f g h).1, (negpush_sem I sign f g h).2 ρ⟩

mutual
theorem negpush_total (sign : Bool) : ∀ f, Args2 f → ∃ g, negpush sign f = some g
  | .at t, _ => ⟨_, rfl⟩
  | .par f, h => by
    simp only [negpush]; exact negpush_total sign f h
  | .neg f, h => by
    rw [negpush.eq_def]
    simp only
    split
    · exact ⟨_, rfl⟩
    · exact negpush_total (!sign) _ h
  | .and fs, h => by
    obtain ⟨gs, e⟩ := negpushL_total sign fs h.2
    have := h.1
    simp only [negpush, e]
    rw [if_neg (by omega)]
    exact ⟨_, rfl⟩
  | .or fs, h => by
    obtain ⟨gs, e⟩ := negpushL_total sign fs h.2
    have := h.1
    simp only [negpush, e]
    rw [if_neg (by omega)]
    exact ⟨_, rfl⟩
  | .imp fs, h => by
    obtain ⟨gs, e⟩ := negpushI_total sign fs h.2
    have := h.1
    simp only [negpush, e]
    rw [if_neg (by omega)]
    exact ⟨_, rfl⟩
  | .all vs f, h => by
    obtain ⟨g, e⟩ := negpush_total sign f h
    simp only [negpush, e]; exact ⟨_, rfl⟩
  | .ex vs f, h => by
    obtain ⟨g, e⟩ := negpush_total sign f h
    simp only [negpush, e]; exact ⟨_, rfl⟩
  | .eqv a b, h => by
    obtain ⟨r1, e1⟩ := negpush_total (!sign) a h.1
    obtain ⟨r2, e2⟩ := negpush_total sign b h.2
    obtain ⟨r3, e3⟩ := negpush_total sign a h.1
    obtain ⟨r4, e4⟩ := negpush_total (!sign) b h.2
    simp only [negpush, e1, e2, e3, e4, Option.bind_some, Option.map_some]; exact ⟨_, rfl⟩
theorem negpushL_total (sign : Bool) : ∀ fs, Args2L fs → ∃ gs, negpushL sign fs = some gs
  | [], _ => ⟨_, rfl⟩
  | f :: fs, h => by
    obtain ⟨g, e⟩ := negpush_total sign f h.1
    obtain ⟨gs, e'⟩ := negpushL_total sign fs h.2
    simp only [negpushL, e, e', Option.bind_some, Option.map_some]; exact ⟨_, rfl⟩
theorem negpushI_total (sign : Bool) : ∀ fs, Args2L fs → ∃ gs, negpushI sign fs = some gs
  | [], _ => ⟨_, rfl⟩
  | [f], h => by
    obtain ⟨g, e⟩ := negpush_total sign f h.1
    simp only [negpushI, e]; exact ⟨_, rfl⟩
  | f :: f' :: fs, h => by
    obtain ⟨g, e⟩ := negpush_total (!sign) f h.1
    obtain ⟨gs, e'⟩ := negpushI_total sign (f' :: fs) h.2
    rw [negpushI]
    simp only [e, e', Option.bind_some, Option.map_some]; exact ⟨_, rfl⟩
end

/-- C26.  Every formula whose connectives have at least two arguments is accepted. -/
theorem C26_negpush_accepts (sign : Bool) (f : Frm) (h : Args2 f) : ∃ g, negpush sign f = some g :=
  negpush_total sign f h

/-- a nested equivalence under a quantifier and an implication with three arguments -/
example : ∃ g, negpush false (.all [uri "X"] (.imp [.at (.nm (uri "p")), .neg (.at (.nm (uri "q"))),
    .eqv (.at (.app (uri "r") [.nm (uri "X")])) (.par (.at (.nm (uri "s"))))])) = some g ∧ Nnf g :=
  let ⟨g, h⟩ := C26_negpush_accepts false _ (by simp [Args2, Args2L])
  ⟨g, h, (C26_negpush_equivalent (D := Unit) ⟨fun _ _ => (), fun _ _ => True⟩ (fun _ => ()) _ _ _ h).1⟩

end Gkc.Props
