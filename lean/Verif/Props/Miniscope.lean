import Verif.FrmLemmas
/-
C27: miniscoping.
-/
namespace Gkc.Props
open Gkc.Clausify

/-- quantified names are plain names (unquoted identifiers or variables), and no two different plain
names of the formula have the same string.  Quoted names and strings may share the string of a
variable. -/
def VarsPlain (f : Frm) : Prop := (∀ n, boundIn n f → okVar n = true) ∧
  ∀ n m, nameIn n f → nameIn m f → okVar n = true → okVar m = true → n.str = m.str → n = m

/-- no name becomes free, bound or a symbol anew (a symbol may lose a quantifier around it) -/
structure NameLe (g f : Frm) : Prop where
  free : ∀ n, freeIn n g → freeIn n f ∨ headIn n f
  bound : ∀ n, boundIn n g → boundIn n f
  head : ∀ n, headIn n g → headIn n f

theorem headsA_sub {t : FT} {n : Nm} (h : n ∈ headsA t) : n ∈ namesT t := by
  cases t with
  | nm p => simpa [headsA, namesT] using h
  | app p as =>
    simp only [headsA, List.mem_cons] at h
    rcases h with h | h
    · simp [namesT, h]
    · simp [namesT, headsL_sub_names as n h]

mutual
theorem head_name {n : Nm} : ∀ {f : Frm}, headIn n f → nameIn n f
  | .at t, h => .inl (headsA_sub h)
  | .neg f, h => head_name (f := f) h
  | .par f, h => head_name (f := f) h
  | .and fs, h => head_nameL (fs := fs) h
  | .or fs, h => head_nameL (fs := fs) h
  | .imp fs, h => head_nameL (fs := fs) h
  | .eqv a b, h => h.elim (fun h => (head_name (f := a) h).imp .inl .inl) (fun h => (head_name (f := b) h).imp .inr .inr)
  | .all vs f, h => by
    by_cases hn : n ∈ vs
    · exact .inr (.inl hn)
    · exact (head_name (f := f) h).imp (fun h => ⟨hn, h⟩) .inr
  | .ex vs f, h => by
    by_cases hn : n ∈ vs
    · exact .inr (.inl hn)
    · exact (head_name (f := f) h).imp (fun h => ⟨hn, h⟩) .inr
theorem head_nameL {n : Nm} : ∀ {fs : List Frm}, headInL n fs → freeInL n fs ∨ boundInL n fs
  | [], h => h.elim
  | f :: fs, h => h.elim (fun h => (head_name (f := f) h).imp .inl .inl) (fun h => (head_nameL (fs := fs) h).imp .inr .inr)
end

theorem NameLe.name {g f : Frm} (h : NameLe g f) {n : Nm} : nameIn n g → nameIn n f
  | .inl a => (h.free n a).elim .inl head_name
  | .inr a => .inr (h.bound n a)

section
variable {S : Nm → Prop} (inj : ∀ n m, S n → S m → n.str = m.str → n = m)
include inj

theorem inVars_iff {vs : List Nm} {n : Nm} (hv : ∀ v ∈ vs, S v) (hn : S n) : inVars vs n = true ↔ n ∈ vs := by
  simp only [inVars, List.any_eq_true, beq_iff_eq]
  constructor
  · rintro ⟨v, h, e⟩
    rw [← inj v n (hv v h) hn e]; exact h
  · exact fun h => ⟨n, h, rfl⟩

theorem mem_varsSubset {vs us : List Nm} (hv : ∀ v ∈ vs, S v) (hu : ∀ v ∈ us, S v) (n : Nm) :
    n ∈ varsSubset vs us ↔ n ∈ vs ∧ n ∉ us := by
  unfold varsSubset
  split
  · rename_i h
    split
    · rename_i hl
      obtain ⟨v, rfl⟩ := List.length_eq_one_iff.1 hl
      simp only [List.any_cons, List.any_nil, Bool.or_false] at h
      have := (inVars_iff inj hu (hv v (by simp))).1 h
      simp only [List.not_mem_nil, List.mem_singleton, false_iff, not_and, Decidable.not_not]
      rintro rfl; exact this
    · simp only [List.mem_reverse, List.mem_filter, Bool.not_eq_true']
      constructor
      · rintro ⟨h1, h2⟩
        refine ⟨h1, fun hc => ?_⟩
        rw [(inVars_iff inj hu (hv n h1)).2 hc] at h2
        cases h2
      · rintro ⟨h1, h2⟩
        refine ⟨h1, ?_⟩
        rw [Bool.eq_false_iff]
        exact fun hc => h2 ((inVars_iff inj hu (hv n h1)).1 hc)
  · rename_i h
    refine ⟨fun h1 => ⟨h1, fun hc => h ?_⟩, fun h1 => h1.1⟩
    rw [List.any_eq_true]
    exact ⟨n, h1, (inVars_iff inj hu (hv n h1)).2 hc⟩

omit inj in
theorem addOccs_sub {vs us : List Nm} {n : Nm} (h : n ∈ addOccs vs us) : n ∈ vs ∨ n ∈ us := by
  unfold addOccs at h
  split at h
  · exact .inl h
  · split at h
    · exact .inr h
    · have key : ∀ (us acc : List Nm), n ∈ us.foldl (fun r v => if inVars vs v = true then r else v :: r) acc →
          n ∈ acc ∨ n ∈ us := by
        intro us
        induction us with
        | nil => intro acc h; exact .inl h
        | cons u us ih =>
          intro acc h
          rw [List.foldl_cons] at h
          rcases ih _ h with h | h
          · split at h
            · exact .inl h
            · rcases List.mem_cons.1 h with h | h
              · exact .inr (by simp [h])
              · exact .inl h
          · exact .inr (by simp [h])
      exact key us vs h

omit inj in
theorem addOccs_has {vs us : List Nm} {n : Nm} (h : n ∈ vs ∨ n ∈ us) : ∃ m ∈ addOccs vs us, m.str = n.str := by
  unfold addOccs
  split
  · rename_i he
    rw [List.isEmpty_iff.1 he] at h
    exact ⟨n, by simpa using h, rfl⟩
  · split
    · rename_i he
      rw [List.isEmpty_iff.1 he] at h
      exact ⟨n, by simpa using h, rfl⟩
    · have key : ∀ (us acc : List Nm), (∀ v ∈ vs, v ∈ acc) → (n ∈ acc ∨ n ∈ us) →
          ∃ m ∈ us.foldl (fun r v => if inVars vs v = true then r else v :: r) acc, m.str = n.str := by
        intro us
        induction us with
        | nil => intro acc _ h; exact ⟨n, h.resolve_right (by simp), rfl⟩
        | cons u us ih =>
          intro acc ha h
          rw [List.foldl_cons]
          split
          · rename_i hi
            rcases h with h | h
            · exact ih acc ha (.inl h)
            · rcases List.mem_cons.1 h with h | h
              · subst h
                simp only [inVars, List.any_eq_true, beq_iff_eq] at hi
                obtain ⟨v, hv, e⟩ := hi
                -- the member with this string stays
                have keep : ∀ (us acc : List Nm), v ∈ acc →
                    v ∈ us.foldl (fun r v => if inVars vs v = true then r else v :: r) acc := by
                  intro us
                  induction us with
                  | nil => intro acc h; exact h
                  | cons u us ih =>
                    intro acc h
                    rw [List.foldl_cons]
                    apply ih
                    split
                    · exact h
                    · exact List.mem_cons_of_mem _ h
                exact ⟨v, keep us acc (ha v hv), e⟩
              · exact ih acc ha (.inr h)
          · apply ih (u :: acc) (fun v h => List.mem_cons_of_mem _ (ha v h))
            rcases h with h | h
            · exact .inl (List.mem_cons_of_mem _ h)
            · rcases List.mem_cons.1 h with h | h
              · exact .inl (by simp [h])
              · exact .inr h
      exact key us vs (fun _ h => h) h

omit inj in
theorem inVars_has {vs : List Nm} {n : Nm} : inVars vs n = true ↔ ∃ v ∈ vs, v.str = n.str := by
  simp [inVars]

mutual
theorem occT_sub {vs : List Nm} {n : Nm} : ∀ (t : FT), n ∈ occT vs t → n ∈ namesT t ∧ ∃ v ∈ vs, v.str = n.str
  | .nm m, h => by
    simp only [occT] at h
    split at h
    · rename_i h'
      rw [List.mem_singleton.1 h]
      exact ⟨by simp [namesT], inVars_has.1 h'⟩
    · cases h
  | .app f as, h => by
    simp only [occT] at h
    rcases occTL_sub as _ h with h | h
    · split at h
      · rename_i h'
        rw [List.mem_singleton.1 h]
        exact ⟨by simp [namesT], inVars_has.1 h'⟩
      · cases h
    · exact ⟨by simp [namesT, h.1], h.2⟩
theorem occTL_sub {vs : List Nm} {n : Nm} : ∀ (ts : List FT) (acc : List Nm), n ∈ occTL vs acc ts →
    n ∈ acc ∨ n ∈ namesTL ts ∧ ∃ v ∈ vs, v.str = n.str
  | [], acc, h => .inl h
  | a :: as, acc, h => by
    simp only [occTL] at h
    rcases occTL_sub as _ h with h | h
    · rcases addOccs_sub h with h | h
      · exact .inl h
      · have := occT_sub a h
        exact .inr ⟨by simp [namesTL, this.1], this.2⟩
    · exact .inr ⟨by simp [namesTL, h.1], h.2⟩
end

mutual
theorem occT_has {vs : List Nm} {n : Nm} (hn : n ∈ vs) : ∀ (t : FT), n ∈ namesT t → ∃ m ∈ occT vs t, m.str = n.str
  | .nm m, h => by
    simp only [namesT, List.mem_singleton] at h
    subst h
    simp only [occT]
    rw [if_pos (inVars_has.2 ⟨n, hn, rfl⟩)]
    exact ⟨n, by simp, rfl⟩
  | .app f as, h => by
    simp only [namesT, List.mem_cons] at h
    simp only [occT]
    rcases h with rfl | h
    · rw [if_pos (inVars_has.2 ⟨n, hn, rfl⟩)]
      exact (occTL_has hn as _).1 ⟨n, by simp, rfl⟩
    · exact (occTL_has hn as _).2 h
theorem occTL_has {vs : List Nm} {n : Nm} (hn : n ∈ vs) : ∀ (ts : List FT) (acc : List Nm),
    ((∃ m ∈ acc, m.str = n.str) → ∃ m ∈ occTL vs acc ts, m.str = n.str) ∧
    (n ∈ namesTL ts → ∃ m ∈ occTL vs acc ts, m.str = n.str)
  | [], acc => ⟨id, fun h => by simp [namesTL] at h⟩
  | a :: as, acc => by
    simp only [occTL, namesTL, List.mem_append]
    have ih := occTL_has hn as (addOccs acc (occT vs a))
    refine ⟨fun ⟨m, h, e⟩ => ?_, fun h => ?_⟩
    · obtain ⟨k, hk, e'⟩ := addOccs_has (us := occT vs a) (.inl h)
      exact ih.1 ⟨k, hk, e'.trans e⟩
    · rcases h with h | h
      · obtain ⟨m, h, e⟩ := occT_has hn a h
        obtain ⟨k, hk, e'⟩ := addOccs_has (vs := acc) (.inr h)
        exact ih.1 ⟨k, hk, e'.trans e⟩
      · exact ih.2 h
end

mutual
/-- what is collected occurs free and has the string of a variable of the list -/
theorem occ_sub {n : Nm} : ∀ (f : Frm) (vs : List Nm), (∀ v ∈ vs, S v) → (∀ m, boundIn m f → S m) →
    n ∈ occ vs f → freeIn n f ∧ ∃ v ∈ vs, v.str = n.str
  | .at t, vs, hv, hs, h => occT_sub inj t h
  | .neg f, vs, hv, hs, h => occ_sub f vs hv hs h
  | .par f, vs, hv, hs, h => occ_sub f vs hv hs h
  | .and fs, vs, hv, hs, h => by
    simp only [occ] at h
    exact (occL_sub fs vs [] hv hs h).resolve_left (by simp)
  | .or fs, vs, hv, hs, h => by
    simp only [occ] at h
    exact (occL_sub fs vs [] hv hs h).resolve_left (by simp)
  | .imp fs, vs, hv, hs, h => by
    simp only [occ] at h
    exact (occL_sub fs vs [] hv hs h).resolve_left (by simp)
  | .eqv a b, vs, hv, hs, h => by
    simp only [occ] at h
    rcases addOccs_sub h with h | h
    · exact (occ_sub a vs hv (fun m hm => hs m (.inl hm)) h).imp_left .inl
    · exact (occ_sub b vs hv (fun m hm => hs m (.inr hm)) h).imp_left .inr
  | .all us f, vs, hv, hs, h => by
    have hu : ∀ v ∈ us, S v := fun v h => hs v (.inl h)
    have hm := mem_varsSubset inj hv hu
    simp only [occ] at h
    obtain ⟨h1, v, h2, e⟩ := occ_sub f _ (fun m h => hv m ((hm m).1 h).1) (fun m h => hs m (.inr h)) h
    obtain ⟨h2, h3⟩ := (hm v).1 h2
    exact ⟨⟨fun hc => h3 (inj v n (hv v h2) (hu n hc) e ▸ hc), h1⟩, v, h2, e⟩
  | .ex us f, vs, hv, hs, h => by
    have hu : ∀ v ∈ us, S v := fun v h => hs v (.inl h)
    have hm := mem_varsSubset inj hv hu
    simp only [occ] at h
    obtain ⟨h1, v, h2, e⟩ := occ_sub f _ (fun m h => hv m ((hm m).1 h).1) (fun m h => hs m (.inr h)) h
    obtain ⟨h2, h3⟩ := (hm v).1 h2
    exact ⟨⟨fun hc => h3 (inj v n (hv v h2) (hu n hc) e ▸ hc), h1⟩, v, h2, e⟩
theorem occL_sub {n : Nm} : ∀ (fs : List Frm) (vs acc : List Nm), (∀ v ∈ vs, S v) → (∀ m, boundInL m fs → S m) →
    n ∈ occL vs acc fs → n ∈ acc ∨ freeInL n fs ∧ ∃ v ∈ vs, v.str = n.str
  | [], vs, acc, _, _, h => .inl h
  | f :: fs, vs, acc, hv, hs, h => by
    simp only [occL] at h
    rcases occL_sub fs vs _ hv (fun m hm => hs m (.inr hm)) h with h | h
    · rcases addOccs_sub h with h | h
      · exact .inl h
      · exact .inr ((occ_sub f vs hv (fun m hm => hs m (.inl hm)) h).imp_left .inl)
    · exact .inr (h.imp_left .inr)
end

mutual
/-- a free variable of the list is collected, at least by its string -/
theorem occ_has {n : Nm} : ∀ (f : Frm) (vs : List Nm), (∀ v ∈ vs, S v) → (∀ m, boundIn m f → S m) →
    n ∈ vs → freeIn n f → ∃ m ∈ occ vs f, m.str = n.str
  | .at t, vs, hv, hs, h, h' => occT_has inj h t h'
  | .neg f, vs, hv, hs, h, h' => occ_has f vs hv hs h h'
  | .par f, vs, hv, hs, h, h' => occ_has f vs hv hs h h'
  | .and fs, vs, hv, hs, h, h' => (occL_has fs vs [] hv hs h).2 h'
  | .or fs, vs, hv, hs, h, h' => (occL_has fs vs [] hv hs h).2 h'
  | .imp fs, vs, hv, hs, h, h' => (occL_has fs vs [] hv hs h).2 h'
  | .eqv a b, vs, hv, hs, h, h' => by
    simp only [occ]
    rcases h' with h' | h'
    · obtain ⟨m, hm, e⟩ := occ_has a vs hv (fun m hm => hs m (.inl hm)) h h'
      obtain ⟨k, hk, e'⟩ := addOccs_has (us := occ vs b) (.inl hm)
      exact ⟨k, hk, e'.trans e⟩
    · obtain ⟨m, hm, e⟩ := occ_has b vs hv (fun m hm => hs m (.inr hm)) h h'
      obtain ⟨k, hk, e'⟩ := addOccs_has (vs := occ vs a) (.inr hm)
      exact ⟨k, hk, e'.trans e⟩
  | .all us f, vs, hv, hs, h, h' => by
    have hu : ∀ v ∈ us, S v := fun v h => hs v (.inl h)
    have hm := mem_varsSubset inj hv hu
    simp only [occ]
    exact occ_has f _ (fun m h => hv m ((hm m).1 h).1) (fun m h => hs m (.inr h)) ((hm n).2 ⟨h, h'.1⟩) h'.2
  | .ex us f, vs, hv, hs, h, h' => by
    have hu : ∀ v ∈ us, S v := fun v h => hs v (.inl h)
    have hm := mem_varsSubset inj hv hu
    simp only [occ]
    exact occ_has f _ (fun m h => hv m ((hm m).1 h).1) (fun m h => hs m (.inr h)) ((hm n).2 ⟨h, h'.1⟩) h'.2
theorem occL_has {n : Nm} : ∀ (fs : List Frm) (vs acc : List Nm), (∀ v ∈ vs, S v) → (∀ m, boundInL m fs → S m) →
    n ∈ vs → ((∃ m ∈ acc, m.str = n.str) → ∃ m ∈ occL vs acc fs, m.str = n.str) ∧
      (freeInL n fs → ∃ m ∈ occL vs acc fs, m.str = n.str)
  | [], vs, acc, _, _, _ => ⟨id, fun h => h.elim⟩
  | f :: fs, vs, acc, hv, hs, h => by
    simp only [occL]
    have ih := occL_has fs vs (addOccs acc (occ vs f)) hv (fun m hm => hs m (.inr hm)) h
    refine ⟨fun ⟨m, hm, e⟩ => ?_, fun h' => ?_⟩
    · obtain ⟨k, hk, e'⟩ := addOccs_has (us := occ vs f) (.inl hm)
      exact ih.1 ⟨k, hk, e'.trans e⟩
    · rcases h' with h' | h'
      · obtain ⟨m, hm, e⟩ := occ_has f vs hv (fun m hm => hs m (.inl hm)) h h'
        obtain ⟨k, hk, e'⟩ := addOccs_has (vs := acc) (.inr hm)
        exact ih.1 ⟨k, hk, e'.trans e⟩
      · exact ih.2 h'
end

/-- if only plain names are collected, they are the variables of the list that occur free -/
theorem mem_of_strings {vs us : List Nm} {P : Nm → Prop} (hv : ∀ v ∈ vs, S v) (hp : ∀ n ∈ us, S n)
    (h1 : ∀ n ∈ us, P n ∧ ∃ v ∈ vs, v.str = n.str) (h2 : ∀ n ∈ vs, P n → ∃ m ∈ us, m.str = n.str) (n : Nm) :
    n ∈ us ↔ n ∈ vs ∧ P n := by
  constructor
  · intro h
    obtain ⟨a, v, hv', e⟩ := h1 n h
    exact ⟨inj v n (hv v hv') (hp n h) e ▸ hv', a⟩
  · rintro ⟨h, hP⟩
    obtain ⟨m, hm, e⟩ := h2 n h hP
    exact inj m n (hp m hm) (hv n h) e ▸ hm
end

theorem freeIn_quant {n : Nm} {q : Bool} {vs : List Nm} {f : Frm} :
    freeIn n (quant q vs f) ↔ n ∉ vs ∧ freeIn n f := by cases q <;> simp [quant, freeIn]
theorem boundIn_quant {n : Nm} {q : Bool} {vs : List Nm} {f : Frm} :
    boundIn n (quant q vs f) ↔ n ∈ vs ∨ boundIn n f := by cases q <;> simp [quant, boundIn]
theorem headIn_quant {n : Nm} {q : Bool} {vs : List Nm} {f : Frm} :
    headIn n (quant q vs f) ↔ headIn n f := by cases q <;> simp [quant, headIn]
theorem freeIn_junct {n : Nm} {c : Bool} {fs : List Frm} : freeIn n (junct c fs) ↔ freeInL n fs := by
  cases c <;> simp [junct, freeIn]
theorem boundIn_junct {n : Nm} {c : Bool} {fs : List Frm} : boundIn n (junct c fs) ↔ boundInL n fs := by
  cases c <;> simp [junct, boundIn]
theorem headIn_junct {n : Nm} {c : Bool} {fs : List Frm} : headIn n (junct c fs) ↔ headInL n fs := by
  cases c <;> simp [junct, headIn]
theorem _root_.Gkc.Clausify.Nnf2.junct {c : Bool} {a b : Frm} (ha : Nnf2 a) (hb : Nnf2 b) : Nnf2 (junct c [a, b]) := by
  cases c
  · exact .or ha hb
  · exact .and ha hb
theorem _root_.Gkc.Clausify.Nnf2.quant {q : Bool} {vs : List Nm} {a : Frm} (ha : Nnf2 a) : Nnf2 (quant q vs a) := by
  cases q
  · exact .ex _ ha
  · exact .all _ ha

section
variable {D : Type} {I : FInt D}

theorem holds_junct2 {c : Bool} {a b : Frm} {ρ : Nm → D} :
    I.holds ρ (junct c [a, b]) ↔ if c then I.holds ρ a ∧ I.holds ρ b else I.holds ρ a ∨ I.holds ρ b := by
  cases c <;> simp [junct, FInt.holds, FInt.holdsAll, FInt.holdsAny]

/-- a quantifier moves over a connective with an argument it does not concern -/
theorem quant_over_left {q c : Bool} {vs : List Nm} {a b : Frm} (h : ∀ n, freeIn n a → n ∉ vs) (ρ : Nm → D) :
    I.holds ρ (quant q vs (junct c [a, b])) ↔ I.holds ρ (junct c [a, quant q vs b]) := by
  have e : ∀ ρ', Variant vs ρ ρ' → (I.holds ρ' a ↔ I.holds ρ a) := fun ρ' hv =>
    holds_congr' a (fun n hn => hv n (h n hn))
  rw [holds_junct2]
  cases q
  · simp only [quant, Bool.false_eq_true, if_false, FInt.holds, holds_junct2]
    cases c
    · simp only [Bool.false_eq_true, if_false]
      constructor
      · rintro ⟨ρ', hv, h | h⟩
        · exact .inl ((e ρ' hv).1 h)
        · exact .inr ⟨ρ', hv, h⟩
      · rintro (h | ⟨ρ', hv, h⟩)
        · exact ⟨ρ, .refl _ _, .inl h⟩
        · exact ⟨ρ', hv, .inr h⟩
    · simp only [if_true]
      constructor
      · rintro ⟨ρ', hv, h1, h2⟩
        exact ⟨(e ρ' hv).1 h1, ρ', hv, h2⟩
      · rintro ⟨h1, ρ', hv, h2⟩
        exact ⟨ρ', hv, (e ρ' hv).2 h1, h2⟩
  · simp only [quant, if_true, FInt.holds, holds_junct2]
    cases c
    · simp only [Bool.false_eq_true, if_false]
      constructor
      · intro h
        by_cases ha : I.holds ρ a
        · exact .inl ha
        · exact .inr fun ρ' hv => (h ρ' hv).resolve_left (fun hc => ha ((e ρ' hv).1 hc))
      · rintro (h | h) ρ' hv
        · exact .inl ((e ρ' hv).2 h)
        · exact .inr (h ρ' hv)
    · simp only [if_true]
      constructor
      · intro h
        exact ⟨(h ρ (.refl _ _)).1, fun ρ' hv => (h ρ' hv).2⟩
      · rintro ⟨h1, h2⟩ ρ' hv
        exact ⟨(e ρ' hv).2 h1, h2 ρ' hv⟩

theorem junct_comm {c : Bool} {a b : Frm} (ρ : Nm → D) :
    I.holds ρ (junct c [a, b]) ↔ I.holds ρ (junct c [b, a]) := by
  rw [holds_junct2, holds_junct2]
  cases c
  · simp [or_comm]
  · simp [and_comm]

theorem quant_congr {q : Bool} {vs : List Nm} {f g : Frm} (h : ∀ ρ, I.holds ρ f ↔ I.holds ρ g) (ρ : Nm → D) :
    I.holds ρ (quant q vs f) ↔ I.holds ρ (quant q vs g) := by
  cases q <;> simp [quant, FInt.holds, h]

/-- a quantifier distributes over the connective that fits it -/
theorem quant_over_both {q : Bool} {vs : List Nm} {a b : Frm} (ρ : Nm → D) :
    I.holds ρ (quant q vs (junct q [a, b])) ↔ I.holds ρ (junct q [quant q vs a, quant q vs b]) := by
  rw [holds_junct2]
  cases q
  · simp only [quant, Bool.false_eq_true, if_false, FInt.holds, holds_junct2]
    constructor
    · rintro ⟨ρ', hv, h | h⟩
      · exact .inl ⟨ρ', hv, h⟩
      · exact .inr ⟨ρ', hv, h⟩
    · rintro (⟨ρ', hv, h⟩ | ⟨ρ', hv, h⟩)
      · exact ⟨ρ', hv, .inl h⟩
      · exact ⟨ρ', hv, .inr h⟩
  · simp only [quant, if_true, FInt.holds, holds_junct2]
    exact ⟨fun h => ⟨fun ρ' hv => (h ρ' hv).1, fun ρ' hv => (h ρ' hv).2⟩, fun h ρ' hv => ⟨h.1 ρ' hv, h.2 ρ' hv⟩⟩

/-- removing variables that do not occur -/
theorem quantNe_holds {q : Bool} {vs us : List Nm} {f : Frm} (h : ∀ n, n ∈ us ↔ n ∈ vs ∧ freeIn n f) (ρ : Nm → D) :
    I.holds ρ (quantNe q us f) ↔ I.holds ρ (quant q vs f) := by
  unfold quantNe
  split
  · rename_i he
    rw [List.isEmpty_iff.1 he] at h
    exact (quant_none q f (fun n hn hv => by simpa using (h n).2 ⟨hv, hn⟩) ρ).symm
  · exact quant_vars q f (fun n hn => by simp [h, hn]) ρ
end

theorem NameLe.refl (f : Frm) : NameLe f f := ⟨fun _ h => .inl h, fun _ h => h, fun _ h => h⟩
theorem NameLe.trans {a b c : Frm} (h : NameLe a b) (h' : NameLe b c) : NameLe a c :=
  ⟨fun n hn => (h.free n hn).elim (h'.free n) (fun h => .inr (h'.head n h)), fun n hn => h'.bound n (h.bound n hn), fun n hn => h'.head n (h.head n hn)⟩

theorem NameLe.junct {c : Bool} {a b a' b' : Frm} (h : NameLe a' a) (h' : NameLe b' b) :
    NameLe (junct c [a', b']) (junct c [a, b]) where
  free n := by
    simp only [freeIn_junct, freeInL, or_false, headIn_junct, headInL]
    rintro (hn | hn)
    · exact (h.free n hn).imp .inl .inl
    · exact (h'.free n hn).imp .inr .inr
  bound n := by
    simp only [boundIn_junct, boundInL, or_false]
    exact fun hn => hn.imp (h.bound n) (h'.bound n)
  head n := by
    simp only [headIn_junct, headInL, or_false]
    exact fun hn => hn.imp (h.head n) (h'.head n)

theorem NameLe.quant {q : Bool} {vs : List Nm} {a a' : Frm} (h : NameLe a' a) :
    NameLe (quant q vs a') (quant q vs a) where
  free n := by
    simp only [freeIn_quant, headIn_quant]
    exact fun hn => (h.free n hn.2).imp (fun h => ⟨hn.1, h⟩) id
  bound n := by
    simp only [boundIn_quant]
    exact fun hn => hn.imp id (h.bound n)
  head n := by
    simp only [headIn_quant]
    exact h.head n

/-- fewer variables, if only irrelevant ones go -/
theorem NameLe.quantNe {q : Bool} {vs us : List Nm} {f : Frm} (h : ∀ n, n ∈ us ↔ n ∈ vs ∧ freeIn n f) :
    NameLe (quantNe q us f) (Clausify.quant q vs f) := by
  unfold Clausify.quantNe
  split
  · rename_i he
    rw [List.isEmpty_iff.1 he] at h
    exact ⟨fun n hn => by rw [freeIn_quant]; exact .inl ⟨fun hv => by simpa using (h n).2 ⟨hv, hn⟩, hn⟩,
      fun n hn => by rw [boundIn_quant]; exact .inr hn, fun n hn => by rw [headIn_quant]; exact hn⟩
  · exact ⟨fun n => by
      rw [freeIn_quant, freeIn_quant]
      exact fun hn => .inl ⟨fun hv => hn.1 ((h n).2 ⟨hv, hn.2⟩), hn.2⟩,
      fun n => by
        rw [boundIn_quant, boundIn_quant]
        exact fun hn => hn.imp (fun hu => ((h n).1 hu).1) id, fun n => by rw [headIn_quant, headIn_quant]; exact id⟩

theorem _root_.Gkc.Clausify.Nnf2.quantNe {q : Bool} {vs : List Nm} {a : Frm} (ha : Nnf2 a) : Nnf2 (quantNe q vs a) := by
  unfold Clausify.quantNe
  split
  · exact ha
  · exact ha.quant

/-- what moving one quantifier must do -/
structure PushOk (q : Bool) (vs : List Nm) (f g : Frm) : Prop where
  nnf : Nnf2 g
  le : NameLe g (quant q vs f)
  sem : ∀ {D : Type} (I : FInt D) (ρ : Nm → D), I.holds ρ g ↔ I.holds ρ (quant q vs f)

section
variable {S : Nm → Prop} (inj : ∀ n m, S n → S m → n.str = m.str → n = m)
include inj

theorem pushJ_ok {q c : Bool} {vs : List Nm} {a b : Frm} (hv : ∀ v ∈ vs, S v)
    (ha : Nnf2 a) (hb : Nnf2 b) (sa : ∀ m, boundIn m a → S m) (sb : ∀ m, boundIn m b → S m)
    (hr : ∀ m, boundIn m (pushJ q c vs a b []) → S m) :
    PushOk q vs (junct c [a, b]) (pushJ q c vs a b []) := by
  have ma := fun h n => mem_of_strings inj (P := (freeIn · a)) hv h
    (fun n hn => occ_sub inj a vs hv sa hn) (fun n hn hf => occ_has inj a vs hv sa hn hf) n
  have mb := fun h n => mem_of_strings inj (P := (freeIn · b)) hv h
    (fun n hn => occ_sub inj b vs hv sb hn) (fun n hn hf => occ_has inj b vs hv sb hn hf) n
  have ea : (occ vs a).isEmpty = true → ∀ n, freeIn n a → n ∉ vs := fun h n hn hm => by
    obtain ⟨m, this, _⟩ := occ_has inj a vs hv sa hm hn
    rw [List.isEmpty_iff.1 h] at this
    cases this
  have eb : (occ vs b).isEmpty = true → ∀ n, freeIn n b → n ∉ vs := fun h n hn hm => by
    obtain ⟨m, this, _⟩ := occ_has inj b vs hv sb hm hn
    rw [List.isEmpty_iff.1 h] at this
    cases this
  unfold pushJ at hr ⊢
  simp only at hr ⊢
  split at hr
  · rename_i h
    rw [if_pos h]
    rw [Bool.and_eq_true] at h
    have hf : ∀ n, freeIn n (junct c [a, b]) → n ∉ vs := fun n hn => by
      simp only [freeIn_junct, freeInL, or_false] at hn
      exact hn.elim (ea h.1 n) (eb h.2 n)
    exact ⟨ha.junct hb, ⟨fun n hn => .inl (freeIn_quant.2 ⟨hf n hn, hn⟩), fun n hn => boundIn_quant.2 (.inr hn),
      fun n hn => headIn_quant.2 hn⟩, fun I ρ => (quant_none q _ hf ρ).symm⟩
  · rename_i h0
    rw [if_neg h0]
    split at hr
    · rename_i h
      rw [if_pos h]
      have mb := mb (fun m hm => hr m (by simp [boundIn_junct, boundInL, boundIn_quant, hm]))
      refine ⟨ha.junct hb.quant, ⟨fun n => ?_, fun n => ?_, fun n => ?_⟩, fun I ρ => ?_⟩
      · simp only [freeIn_quant, freeIn_junct, freeInL, or_false]
        rintro (hn | hn)
        · exact .inl ⟨ea h n hn, .inl hn⟩
        · exact .inl ⟨fun hm => hn.1 ((mb n).2 ⟨hm, hn.2⟩), .inr hn.2⟩
      · simp only [boundIn_quant, boundIn_junct, boundInL, or_false]
        rintro (hn | hn | hn)
        · exact .inr (.inl hn)
        · exact .inl ((mb n).1 hn).1
        · exact .inr (.inr hn)
      · simp only [headIn_quant, headIn_junct, headInL, or_false]; exact id
      · rw [quant_over_left (ea h), holds_junct2, holds_junct2,
          quant_vars q (us := vs) b (fun n hn => by simp [mb, hn]) ρ]
    · rename_i h1
      rw [if_neg h1]
      split at hr
      · rename_i h
        rw [if_pos h]
        have ma := ma (fun m hm => hr m (by simp [boundIn_junct, boundInL, boundIn_quant, hm]))
        refine ⟨ha.quant.junct hb, ⟨fun n => ?_, fun n => ?_, fun n => ?_⟩, fun I ρ => ?_⟩
        · simp only [freeIn_quant, freeIn_junct, freeInL, or_false]
          rintro (hn | hn)
          · exact .inl ⟨fun hm => hn.1 ((ma n).2 ⟨hm, hn.2⟩), .inl hn.2⟩
          · exact .inl ⟨eb h n hn, .inr hn⟩
        · simp only [boundIn_quant, boundIn_junct, boundInL, or_false]
          rintro ((hn | hn) | hn)
          · exact .inl ((ma n).1 hn).1
          · exact .inr (.inl hn)
          · exact .inr (.inr hn)
        · simp only [headIn_quant, headIn_junct, headInL, or_false]; exact id
        · rw [quant_congr (fun ρ => junct_comm ρ), quant_over_left (eb h), junct_comm, holds_junct2, holds_junct2,
            quant_vars q (us := vs) a (fun n hn => by simp [ma, hn]) ρ]
      · rename_i h2
        rw [if_neg h2]
        split at hr
        · rename_i h
          rw [if_pos h]
          have ma := ma (fun m hm => hr m (by simp [boundIn_junct, boundInL, boundIn_quant, hm]))
          have mb := mb (fun m hm => hr m (by simp [boundIn_junct, boundInL, boundIn_quant, hm]))
          have h := eq_of_beq h
          subst h
          refine ⟨ha.quant.junct hb.quant, ⟨fun n => ?_, fun n => ?_, fun n => ?_⟩, fun I ρ => ?_⟩
          · simp only [freeIn_quant, freeIn_junct, freeInL, or_false]
            rintro (hn | hn)
            · exact .inl ⟨fun hm => hn.1 ((ma n).2 ⟨hm, hn.2⟩), .inl hn.2⟩
            · exact .inl ⟨fun hm => hn.1 ((mb n).2 ⟨hm, hn.2⟩), .inr hn.2⟩
          · simp only [boundIn_quant, boundIn_junct, boundInL, or_false]
            rintro ((hn | hn) | (hn | hn))
            · exact .inl ((ma n).1 hn).1
            · exact .inr (.inl hn)
            · exact .inl ((mb n).1 hn).1
            · exact .inr (.inr hn)
          · simp only [headIn_quant, headIn_junct, headInL, or_false]; exact id
          · rw [quant_over_both, holds_junct2, holds_junct2, quant_vars q (us := vs) a (fun n hn => by simp [ma, hn]) ρ,
              quant_vars q (us := vs) b (fun n hn => by simp [mb, hn]) ρ]
        · rename_i h3
          rw [if_neg h3]
          have hm : ∀ n, n ∈ addOccs (occ vs a) (occ vs b) ↔ n ∈ vs ∧ freeIn n (junct c [a, b]) := by
            refine mem_of_strings inj (P := (freeIn · (junct c [a, b]))) hv (fun m hm => hr m ?_)
              (fun n hn => ?_) (fun n hn hf => ?_)
            · unfold Clausify.quantNe
              split
              · rename_i he
                rw [List.isEmpty_iff.1 he] at hm
                cases hm
              · exact boundIn_quant.2 (.inl hm)
            · simp only [freeIn_junct, freeInL, or_false]
              rcases addOccs_sub hn with hn | hn
              · exact (occ_sub inj a vs hv sa hn).imp_left .inl
              · exact (occ_sub inj b vs hv sb hn).imp_left .inr
            · simp only [freeIn_junct, freeInL, or_false] at hf
              rcases hf with hf | hf
              · obtain ⟨m, hm, e⟩ := occ_has inj a vs hv sa hn hf
                obtain ⟨k, hk, e'⟩ := addOccs_has (us := occ vs b) (.inl hm)
                exact ⟨k, hk, e'.trans e⟩
              · obtain ⟨m, hm, e⟩ := occ_has inj b vs hv sb hn hf
                obtain ⟨k, hk, e'⟩ := addOccs_has (vs := occ vs a) (.inr hm)
                exact ⟨k, hk, e'.trans e⟩
          exact ⟨(ha.junct hb).quantNe, .quantNe hm, fun I ρ => quantNe_holds hm ρ⟩

theorem pushQ_ok {q : Bool} {vs : List Nm} {f g : Frm} (hf : Nnf2 f) (hv : ∀ v ∈ vs, S v)
    (hs : ∀ m, boundIn m f → S m) (hr : ∀ m, boundIn m g → S m) (h : pushQ q vs f = some g) : PushOk q vs f g := by
  have gen : quantNe q (occ vs f) f = g → PushOk q vs f g := by
    rintro rfl
    have hm := mem_of_strings inj (P := (freeIn · f)) hv (us := occ vs f) (fun m hm => hr m (by
        unfold Clausify.quantNe
        split
        · rename_i he
          rw [List.isEmpty_iff.1 he] at hm
          cases hm
        · exact boundIn_quant.2 (.inl hm)))
      (fun n hn => occ_sub inj f vs hv hs hn) (fun n hn hf' => occ_has inj f vs hv hs hn hf')
    exact ⟨hf.quantNe, .quantNe hm, fun I ρ => quantNe_holds hm ρ⟩
  cases hf with
  | «at» t =>
    cases t with
    | nm n =>
      simp only [pushQ, Option.some.injEq] at h
      subst h
      exact ⟨.at _, ⟨fun m hm => by
        rw [headIn_quant]
        simp only [freeIn, namesT, List.mem_singleton] at hm
        exact .inr (by simp [headIn, headsA, hm]), fun m hm => hm.elim, fun m hm => by rwa [headIn_quant]⟩,
        fun I ρ => by
          have : ∀ σ, I.holds σ (.at (.nm n)) ↔ I.holds ρ (.at (.nm n)) := fun σ => by simp [FInt.holds, FInt.atom]
          cases q
          · simp only [quant, Bool.false_eq_true, if_false]
            rw [FInt.holds]
            exact ⟨fun h => ⟨ρ, .refl _ _, h⟩, fun ⟨σ, _, h⟩ => (this σ).1 h⟩
          · simp only [quant, if_true]
            rw [FInt.holds]
            exact ⟨fun h σ _ => (this σ).2 h, fun h => h ρ (.refl _ _)⟩⟩
    | app p as =>
      simp only [pushQ, Option.some.injEq] at h
      exact gen h
  | neg t => simp only [pushQ, Option.some.injEq] at h; exact gen h
  | all us hf => simp only [pushQ, Option.some.injEq] at h; exact gen h
  | ex us hf => simp only [pushQ, Option.some.injEq] at h; exact gen h
  | @and a b ha hb =>
    simp only [pushQ, Option.some.injEq] at h
    subst h
    exact pushJ_ok inj (c := true) hv ha hb (fun m hm => hs m (.inl hm)) (fun m hm => hs m (.inr (.inl hm))) hr
  | @or a b ha hb =>
    simp only [pushQ, Option.some.injEq] at h
    subst h
    exact pushJ_ok inj (c := false) hv ha hb (fun m hm => hs m (.inl hm)) (fun m hm => hs m (.inr (.inl hm))) hr

/-- what the whole function must do -/
structure MiniOk (f g : Frm) : Prop where
  nnf : Nnf2 g
  le : NameLe g f
  sem : ∀ {D : Type} (I : FInt D) (ρ : Nm → D), I.holds ρ g ↔ I.holds ρ f

omit inj in
theorem pushQ_total {q : Bool} {vs : List Nm} {f : Frm} (hf : Nnf2 f) : ∃ g, pushQ q vs f = some g := by
  cases hf with
  | «at» t => cases t <;> exact ⟨_, rfl⟩
  | _ => exact ⟨_, rfl⟩

omit inj in
theorem pushQ_nnf {q : Bool} {vs : List Nm} {f g : Frm} (hf : Nnf2 f) (h : pushQ q vs f = some g) :
    Nnf2 g ∧ ∀ n, boundIn n f → boundIn n g := by
  have gen : quantNe q (occ vs f) f = g → Nnf2 g ∧ ∀ n, boundIn n f → boundIn n g := by
    rintro rfl
    refine ⟨hf.quantNe, fun n hn => ?_⟩
    unfold Clausify.quantNe
    split
    · exact hn
    · exact boundIn_quant.2 (.inr hn)
  have jn : ∀ {c : Bool} {a b : Frm}, Nnf2 a → Nnf2 b → Nnf2 (pushJ q c vs a b []) ∧
      ∀ n, boundIn n (junct c [a, b]) → boundIn n (pushJ q c vs a b []) := by
    intro c a b ha hb
    unfold pushJ
    simp only
    split
    · exact ⟨ha.junct hb, fun n hn => hn⟩
    · split
      · exact ⟨ha.junct hb.quant, fun n => by
          simp only [boundIn_junct, boundInL, boundIn_quant, or_false]
          exact fun hn => hn.imp id .inr⟩
      · split
        · exact ⟨ha.quant.junct hb, fun n => by
            simp only [boundIn_junct, boundInL, boundIn_quant, or_false]
            exact fun hn => hn.imp .inr id⟩
        · split
          · exact ⟨ha.quant.junct hb.quant, fun n => by
              simp only [boundIn_junct, boundInL, boundIn_quant, or_false]
              exact fun hn => hn.imp .inr .inr⟩
          · refine ⟨(ha.junct hb).quantNe, fun n hn => ?_⟩
            unfold Clausify.quantNe
            split
            · exact hn
            · exact boundIn_quant.2 (.inr hn)
  cases hf with
  | «at» t =>
    cases t with
    | nm n => simp only [pushQ, Option.some.injEq] at h; subst h; exact ⟨.at _, fun n hn => hn.elim⟩
    | app p as => simp only [pushQ, Option.some.injEq] at h; exact gen h
  | neg t => simp only [pushQ, Option.some.injEq] at h; exact gen h
  | all us hf => simp only [pushQ, Option.some.injEq] at h; exact gen h
  | ex us hf => simp only [pushQ, Option.some.injEq] at h; exact gen h
  | @and a b ha hb => simp only [pushQ, Option.some.injEq] at h; exact h ▸ jn (c := true) ha hb
  | @or a b ha hb => simp only [pushQ, Option.some.injEq] at h; exact h ▸ jn (c := false) ha hb

omit inj in
theorem mini_total {f : Frm} (hf : Nnf2 f) : ∃ g, mini f = some g ∧ Nnf2 g := by
  induction hf with
  | «at» t => exact ⟨_, by simp [mini], .at t⟩
  | neg t => exact ⟨_, by simp [mini], .neg t⟩
  | and _ _ iha ihb =>
    obtain ⟨a', e1, oa⟩ := iha
    obtain ⟨b', e2, ob⟩ := ihb
    exact ⟨_, by simp only [mini, e1, e2, Option.bind_some, Option.map_some], .and oa ob⟩
  | or _ _ iha ihb =>
    obtain ⟨a', e1, oa⟩ := iha
    obtain ⟨b', e2, ob⟩ := ihb
    exact ⟨_, by simp only [mini, e1, e2, Option.bind_some, Option.map_some], .or oa ob⟩
  | all vs _ ih =>
    obtain ⟨g, e, og⟩ := ih
    obtain ⟨k, hk⟩ := pushQ_total (q := true) (vs := vs) og
    exact ⟨k, by simp only [mini, e, Option.bind_some]; exact hk, (pushQ_nnf og hk).1⟩
  | ex vs _ ih =>
    obtain ⟨g, e, og⟩ := ih
    obtain ⟨k, hk⟩ := pushQ_total (q := false) (vs := vs) og
    exact ⟨k, by simp only [mini, e, Option.bind_some]; exact hk, (pushQ_nnf og hk).1⟩

theorem mini_ok {f : Frm} (hf : Nnf2 f) : ∀ g, (∀ m, boundIn m f → S m) → mini f = some g →
    (∀ m, boundIn m g → S m) → MiniOk f g := by
  have qcase : ∀ {q : Bool} {vs : List Nm} {f g k : Frm}, (∀ v ∈ vs, S v) → (∀ m, boundIn m g → S m) →
      (∀ m, boundIn m k → S m) → pushQ q vs g = some k → MiniOk f g → MiniOk (quant q vs f) k :=
    fun {q vs f g k} hv hs hr hk hg => by
      have ok := pushQ_ok inj hg.nnf hv hs hr hk
      exact ⟨ok.nnf, ok.le.trans hg.le.quant, fun I ρ => (ok.sem I ρ).trans (quant_congr (hg.sem I) ρ)⟩
  induction hf with
  | «at» t =>
    intro g _ h _
    simp only [mini, Option.some.injEq] at h
    subst h; exact ⟨.at t, .refl _, fun _ _ => Iff.rfl⟩
  | neg t =>
    intro g _ h _
    simp only [mini, Option.some.injEq] at h
    subst h; exact ⟨.neg t, .refl _, fun _ _ => Iff.rfl⟩
  | @and a b ha hb iha ihb =>
    intro g hs h hr
    simp only [mini] at h
    obtain ⟨a', e1, h⟩ := Option.bind_eq_some_iff.1 h
    obtain ⟨b', e2, rfl⟩ := Option.map_eq_some_iff.1 h
    have oa := iha a' (fun m hm => hs m (.inl hm)) e1 (fun m hm => hr m (.inl hm))
    have ob := ihb b' (fun m hm => hs m (.inr (.inl hm))) e2 (fun m hm => hr m (.inr (.inl hm)))
    exact ⟨.and oa.nnf ob.nnf, NameLe.junct (c := true) oa.le ob.le,
      fun I ρ => by simp [holds_and2, oa.sem I, ob.sem I]⟩
  | @or a b ha hb iha ihb =>
    intro g hs h hr
    simp only [mini] at h
    obtain ⟨a', e1, h⟩ := Option.bind_eq_some_iff.1 h
    obtain ⟨b', e2, rfl⟩ := Option.map_eq_some_iff.1 h
    have oa := iha a' (fun m hm => hs m (.inl hm)) e1 (fun m hm => hr m (.inl hm))
    have ob := ihb b' (fun m hm => hs m (.inr (.inl hm))) e2 (fun m hm => hr m (.inr (.inl hm)))
    exact ⟨.or oa.nnf ob.nnf, NameLe.junct (c := false) oa.le ob.le,
      fun I ρ => by simp [holds_or2, oa.sem I, ob.sem I]⟩
  | all vs hf ih =>
    intro k hs h hr
    simp only [mini] at h
    obtain ⟨g, e, h⟩ := Option.bind_eq_some_iff.1 h
    obtain ⟨g', e', hg⟩ := mini_total hf
    cases e.symm.trans e'
    have hb := fun m hm => hr m ((pushQ_nnf hg h).2 m hm)
    exact qcase (fun v hv => hs v (.inl hv)) hb hr h (ih g (fun m hm => hs m (.inr hm)) e hb)
  | ex vs hf ih =>
    intro k hs h hr
    simp only [mini] at h
    obtain ⟨g, e, h⟩ := Option.bind_eq_some_iff.1 h
    obtain ⟨g', e', hg⟩ := mini_total hf
    cases e.symm.trans e'
    have hb := fun m hm => hr m ((pushQ_nnf hg h).2 m hm)
    exact qcase (fun v hv => hs v (.inl hv)) hb hr h (ih g (fun m hm => hs m (.inr hm)) e hb)
end

mutual
theorem occ_name {n : Nm} : ∀ (f : Frm) (vs : List Nm), n ∈ occ vs f → nameIn n f
  | .at t, vs, h => .inl (occT_sub (S := fun _ => False) (fun _ _ h => h.elim) t h).1
  | .neg f, vs, h => occ_name f vs h
  | .par f, vs, h => occ_name f vs h
  | .and fs, vs, h => (occL_name fs vs [] h).resolve_left (by simp)
  | .or fs, vs, h => (occL_name fs vs [] h).resolve_left (by simp)
  | .imp fs, vs, h => (occL_name fs vs [] h).resolve_left (by simp)
  | .eqv a b, vs, h => by
    simp only [occ] at h
    rcases addOccs_sub h with h | h
    · exact (occ_name a vs h).imp .inl .inl
    · exact (occ_name b vs h).imp .inr .inr
  | .all us f, vs, h => by
    simp only [occ] at h
    by_cases hu : n ∈ us
    · exact .inr (.inl hu)
    · exact (occ_name f _ h).imp (fun h => ⟨hu, h⟩) .inr
  | .ex us f, vs, h => by
    simp only [occ] at h
    by_cases hu : n ∈ us
    · exact .inr (.inl hu)
    · exact (occ_name f _ h).imp (fun h => ⟨hu, h⟩) .inr
theorem occL_name {n : Nm} : ∀ (fs : List Frm) (vs acc : List Nm), n ∈ occL vs acc fs →
    n ∈ acc ∨ (freeInL n fs ∨ boundInL n fs)
  | [], vs, acc, h => .inl h
  | f :: fs, vs, acc, h => by
    simp only [occL] at h
    rcases occL_name fs vs _ h with h | h
    · rcases addOccs_sub h with h | h
      · exact .inl h
      · exact .inr ((occ_name f vs h).imp .inl .inl)
    · exact .inr (h.imp .inr .inr)
end

theorem nameIn_quant {q : Bool} {vs : List Nm} {f : Frm} {n : Nm} :
    nameIn n (quant q vs f) ↔ n ∈ vs ∨ nameIn n f := by
  simp only [nameIn, freeIn_quant, boundIn_quant]
  by_cases h : n ∈ vs <;> simp [h]
theorem nameIn_junct2 {c : Bool} {a b : Frm} {n : Nm} :
    nameIn n (junct c [a, b]) ↔ nameIn n a ∨ nameIn n b := by
  simp only [nameIn, freeIn_junct, boundIn_junct, freeInL, boundInL, or_false]
  exact or_or_or_comm ..
theorem nameIn_quantNe {q : Bool} {vs : List Nm} {f : Frm} {n : Nm} (h : nameIn n (quantNe q vs f)) :
    n ∈ vs ∨ nameIn n f := by
  unfold quantNe at h
  split at h
  · exact .inr h
  · exact nameIn_quant.1 h

theorem pushQ_name {q : Bool} {vs : List Nm} {f g : Frm} (hf : Nnf2 f) (h : pushQ q vs f = some g) {n : Nm}
    (hn : nameIn n g) : nameIn n f := by
  have gen : quantNe q (occ vs f) f = g → nameIn n f := by
    rintro rfl
    exact (nameIn_quantNe hn).elim (occ_name f vs) id
  have jn : ∀ {c : Bool} {a b : Frm}, nameIn n (pushJ q c vs a b []) → nameIn n (junct c [a, b]) := by
    intro c a b hn
    rw [nameIn_junct2]
    unfold pushJ at hn
    simp only at hn
    split at hn
    · exact nameIn_junct2.1 hn
    · split at hn
      · rw [nameIn_junct2, nameIn_quant] at hn
        exact hn.imp id (fun h => h.elim (occ_name b vs) id)
      · split at hn
        · rw [nameIn_junct2, nameIn_quant] at hn
          exact hn.imp (fun h => h.elim (occ_name a vs) id) id
        · split at hn
          · rw [nameIn_junct2, nameIn_quant, nameIn_quant] at hn
            exact hn.imp (fun h => h.elim (occ_name a vs) id) (fun h => h.elim (occ_name b vs) id)
          · rcases nameIn_quantNe hn with h | h
            · exact (addOccs_sub h).imp (occ_name a vs) (occ_name b vs)
            · exact nameIn_junct2.1 h
  cases hf with
  | «at» t =>
    cases t with
    | nm n => simp only [pushQ, Option.some.injEq] at h; subst h; exact hn
    | app p as => simp only [pushQ, Option.some.injEq] at h; exact gen h
  | neg t => simp only [pushQ, Option.some.injEq] at h; exact gen h
  | all us hf => simp only [pushQ, Option.some.injEq] at h; exact gen h
  | ex us hf => simp only [pushQ, Option.some.injEq] at h; exact gen h
  | @and a b ha hb => simp only [pushQ, Option.some.injEq] at h; subst h; exact jn (c := true) hn
  | @or a b ha hb => simp only [pushQ, Option.some.injEq] at h; subst h; exact jn (c := false) hn

theorem mini_name {f : Frm} (hf : Nnf2 f) : ∀ g, mini f = some g → ∀ n, nameIn n g → nameIn n f := by
  induction hf with
  | «at» t => intro g h n hn; simp only [mini, Option.some.injEq] at h; subst h; exact hn
  | neg t => intro g h n hn; simp only [mini, Option.some.injEq] at h; subst h; exact hn
  | @and a b _ _ iha ihb =>
    intro g h n hn
    simp only [mini] at h
    obtain ⟨a', e1, h⟩ := Option.bind_eq_some_iff.1 h
    obtain ⟨b', e2, rfl⟩ := Option.map_eq_some_iff.1 h
    exact (nameIn_junct2 (c := true)).2 (((nameIn_junct2 (c := true)).1 hn).imp (iha a' e1 n) (ihb b' e2 n))
  | @or a b _ _ iha ihb =>
    intro g h n hn
    simp only [mini] at h
    obtain ⟨a', e1, h⟩ := Option.bind_eq_some_iff.1 h
    obtain ⟨b', e2, rfl⟩ := Option.map_eq_some_iff.1 h
    exact (nameIn_junct2 (c := false)).2 (((nameIn_junct2 (c := false)).1 hn).imp (iha a' e1 n) (ihb b' e2 n))
  | all vs hf ih =>
    intro k h n hn
    simp only [mini] at h
    obtain ⟨g, e, h⟩ := Option.bind_eq_some_iff.1 h
    obtain ⟨g', e', hg⟩ := mini_total hf
    cases e.symm.trans e'
    exact (nameIn_quant (q := true)).2 (.inr (ih g e n (pushQ_name hg h hn)))
  | ex vs hf ih =>
    intro k h n hn
    simp only [mini] at h
    obtain ⟨g, e, h⟩ := Option.bind_eq_some_iff.1 h
    obtain ⟨g', e', hg⟩ := mini_total hf
    cases e.symm.trans e'
    exact (nameIn_quant (q := false)).2 (.inr (ih g e n (pushQ_name hg h hn)))

/-- miniscoping, all facts -/
theorem mini_correct {f g : Frm} (hf : Nnf2 f) (hv : VarsPlain f) (h : mini f = some g)
    (hg : ∀ n, boundIn n g → okVar n = true) : MiniOk f g :=
  mini_ok (S := fun n => okVar n = true ∧ nameIn n f) (fun n m hn hm => hv.2 n m hn.2 hm.2 hn.1 hm.1)
    hf g (fun m hm => ⟨hv.1 m hm, .inr hm⟩) h (fun m hm => ⟨hg m hm, mini_name hf g h m (.inr hm)⟩)

/-- C27.  For a formula in negation normal form with two arguments for each connective, moving the
quantifiers inwards gives an equivalent formula of the same kind with no new names, unless the
result quantifies a quoted name (`C27_quoted_name_rejected`). -/
theorem C27_miniscope_equivalent_partial (f g : Frm) (hf : Nnf2 f) (hv : VarsPlain f) (h : mini f = some g)
    (hg : ∀ n, boundIn n g → okVar n = true) : Nnf2 g ∧ (∀ n, nameIn n g → nameIn n f) ∧
      ∀ {D : Type} (I : FInt D) (ρ : Nm → D), I.holds ρ g ↔ I.holds ρ f :=
  have ok := mini_correct hf hv h hg
  ⟨ok.nnf, mini_name hf g h, ok.sem⟩

/-- C27.  The function succeeds on all these formulas. -/
theorem C27_miniscope_total (f : Frm) (hf : Nnf2 f) : ∃ g, mini f = some g :=
  (mini_total hf).imp fun _ h => h.1

/-- all X, Y: (p(X) and exists X: q(X,Y)), with the inner X hiding the outer one -/
def exMini : Frm := .all [uri "X", uri "Y"] (.and [.at (.app (uri "p") [.nm (uri "X")]),
  .ex [uri "X"] (.at (.app (uri "q") [.nm (uri "X"), .nm (uri "Y")]))])
/-- the result -/
def exMini' : Frm := .and [.all [uri "X"] (.at (.app (uri "p") [.nm (uri "X")])),
    .all [uri "Y"] (.ex [uri "X"] (.at (.app (uri "q") [.nm (uri "X"), .nm (uri "Y")])))]

theorem exMini_eq : mini exMini = some exMini' := by
  simp [exMini, exMini', mini, pushQ, pushJ, occ, occT, occTL, inVars, addOccs, varsSubset, quantNe, uri, quant, junct]

example : Nnf2 exMini ∧ VarsPlain exMini ∧ mini exMini = some exMini' ∧ ∀ n, boundIn n exMini' → okVar n = true := by
  refine ⟨.all _ (.and (.at _) (.ex _ (.at _))), ⟨fun n h => ?_, fun n m h h' _ _ e => ?_⟩, exMini_eq, fun n h => ?_⟩
  · simp [exMini, boundIn, boundInL] at h
    rcases h with (rfl | rfl) | rfl <;> rfl
  · have ty : ∀ n, nameIn n exMini → n.ty = 7 := by
      intro n h
      simp [nameIn, exMini, freeIn, freeInL, boundIn, boundInL, namesT, namesTL] at h
      rcases h with ⟨_, (h | h) | ⟨_, h | h | h⟩⟩ | (h | h) | h <;> subst h <;> rfl
    have h1 := ty n h
    have h2 := ty m h'
    cases n; cases m
    simp only at h1 h2 e
    rw [h1, h2, e]
  · simp [exMini', boundIn, boundInL] at h
    rcases h with rfl | rfl | rfl <;> rfl

/-- C27, what is missing: with three arguments under a quantifier the third is lost (the parsers build
connectives with two arguments) -/
theorem C27_third_argument_lost : ∃ (f g : Frm), mini f = some g ∧ ∃ (I : FInt Bool) (ρ : Nm → Bool),
    I.holds ρ g ∧ ¬ I.holds ρ f := by
  refine ⟨.all [uri "X"] (.and [.at (.app (uri "p") [.nm (uri "X")]), .at (.app (uri "q") [.nm (uri "X")]),
    .at (.nm (uri "r"))]), .and [.all [uri "X"] (.at (.app (uri "p") [.nm (uri "X")])),
      .all [uri "X"] (.at (.app (uri "q") [.nm (uri "X")]))],
    by simp [mini, pushQ, pushJ, occ, occT, occTL, inVars, addOccs, quant, junct, uri],
    ⟨fun _ _ => true, fun n _ => n ≠ uri "r"⟩, fun _ => true, ?_, ?_⟩
  · simp [FInt.holds, FInt.holdsAll, FInt.atom, uri]
  · simp only [FInt.holds, FInt.holdsAll, FInt.atom]
    intro h
    exact (h _ (.refl _ _)).2.2.1 rfl

/-- C27, what is missing: names are compared as strings, so in all X: p('X',X) the quoted 'X' takes
the place of the variable in the quantifier, and the formula is rejected later on, although it
could be skolemised before miniscoping.  The type number 107 stands for a quoted name. -/
theorem C27_quoted_name_rejected : ∃ (f g : Frm), Nnf2 f ∧ VarsPlain f ∧ mini f = some g ∧
    (skol [] 0 0 f).isSome ∧ skol [] 0 0 g = none := by
  refine ⟨.all [uri "X"] (.at (.app (uri "p") [.nm ⟨107, "X"⟩, .nm (uri "X")])),
    .all [⟨107, "X"⟩] (.at (.app (uri "p") [.nm ⟨107, "X"⟩, .nm (uri "X")])), .all _ (.at _), ⟨?_, ?_⟩, ?_, ?_, ?_⟩
  · simp [boundIn, okVar, uri]
  · intro n m h h' hn hm e
    have ty : ∀ n, okVar n = true → nameIn n (.all [uri "X"] (.at (.app (uri "p") [.nm ⟨107, "X"⟩, .nm (uri "X")]))) →
        n.ty = 7 := by
      intro n hn h
      simp [nameIn, freeIn, boundIn, namesT, namesTL] at h
      rcases h with ⟨_, h | h | h⟩ | h <;> subst h
      · rfl
      · simp [okVar] at hn
      · rfl
      · rfl
    have h1 := ty n hn h
    have h2 := ty m hm h'
    cases n; cases m
    simp only at h1 h2 e
    rw [h1, h2, e]
  · simp [mini, pushQ, occ, occT, occTL, inVars, addOccs, quant, quantNe, uri]
  · simp [skol, appendAll, okVar, repl, replL, look, uri]
  · simp [skol, appendAll, okVar]

end Gkc.Props
