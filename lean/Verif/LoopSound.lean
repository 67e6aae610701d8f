import Verif.LoopInv
/- Soundness of the given clause loop as a function, for C61. -/
namespace Gkc.Loop
open Gkc Term Complete
open Gkc.Props (Units.has AddrOk UnitsTrue DoublesTrue OneSign clTrue_iff)

variable {S : Const → Prop}

/-- every clause kept is true in `I` and no proof was found -/
structure TrueIn (S : Const → Prop) (I : Interp) (s : PState) : Prop where
  pas : ∀ c ∈ s.passive, AddrOk c ∧ (∀ l ∈ lits c, Shape S l) ∧ ClTrue I (lits c)
  act : ∀ a ∈ s.active, ∃ r, a = fresh r ∧ (∀ l ∈ r, Shape S l) ∧ ClTrue I r
  unit : UnitsTrue I s.units
  dbl : ∀ d ∈ s.doubles, ClTrue I [d.1, d.2]
  ref : s.refuted = false

theorem fresh_addr {ls : List Lit} : AddrOk (fresh ls) := by
  intro l hl k hk e
  obtain ⟨i, hi⟩ := List.mem_iff_getElem?.1 hl
  obtain ⟨j, hj⟩ := List.mem_iff_getElem?.1 hk
  have h1 := (fresh_get hi).1
  have h2 := (fresh_get hj).1
  have : i = j := by omega
  subst this
  rw [hi] at hj
  cases hj
  rfl

theorem fresh_one {ls : List Lit} : OneSign (fresh ls) := by
  intro l hl k hk e
  obtain ⟨i, hi⟩ := List.mem_iff_getElem?.1 hl
  obtain ⟨j, hj⟩ := List.mem_iff_getElem?.1 hk
  have h1 := (fresh_get hi).1
  have h2 := (fresh_get hj).1
  have : i = j := by omega
  subst this
  rw [hi] at hj
  cases hj
  rfl

theorem learn_true {I : Interp} {s : PState} (h : TrueIn S I s) {cl : List ALit} (hc : ClTrue I (lits cl)) : TrueIn S I (learn s cl) := by
  refine ⟨by simpa using h.pas, by simpa using h.act, ?_, ?_, by simpa using h.ref⟩
  · intro b t hu
    rcases learn_units hu with hu | e
    · exact h.unit b t hu
    · rw [← e]; exact hc
  · unfold learn
    split
    · exact h.dbl
    · intro d hd
      rcases List.mem_cons.1 hd with rfl | hd
      · exact hc
      · exact h.dbl d hd
    · exact h.dbl

theorem enter_true {I : Interp} {s : PState} (h : TrueIn S I s) {r : List Lit} (hs : ∀ l ∈ r, Shape S l) (hc : ClTrue I r) :
    TrueIn S I (enter s (fresh r)) := by
  have hl := learn_true h (cl := fresh r) (by rwa [lits_fresh])
  refine ⟨?_, hl.act, hl.unit, hl.dbl, hl.ref⟩
  intro c hc'
  simp only [enter, List.mem_append, List.mem_singleton] at hc'
  rcases hc' with hc' | rfl
  · exact h.pas c hc'
  · exact ⟨fresh_addr, by rwa [lits_fresh], by rwa [lits_fresh]⟩

theorem bucket_true {I : Interp} {s : PState} (h : TrueIn S I s) : DoublesTrue I (bucket s.doubles) := by
  intro b x y hy
  exact h.dbl y (List.mem_filter.1 hy).1

theorem not_nil {I : Interp} (d : I.D) (h : ClTrue I []) : False := by
  obtain ⟨l, hl, _⟩ := h (fun _ => d)
  cases hl

/-- the result of an inference is true -/
def InfTrue (S : Const → Prop) (I : Interp) (i : Inf) : Prop := ∀ r, i = .ok r → (∀ l ∈ r, Shape S l) ∧ ClTrue I r

theorem derive1_true {I : Interp} (d : I.D) {o : Opt} {s s' : LState} {i : Inf} (h : derive1 o s i = some s') (hi : InfTrue S I i)
    (ht : TrueIn S I s.st) : TrueIn S I s'.st ∧ s'.st.active = s.st.active := by
  unfold derive1 at h
  split at h
  · cases h; exact ⟨ht, rfl⟩
  · split at h
    · cases h
    · cases h; exact ⟨ht, rfl⟩
    · simp only [Option.some.injEq] at h
      subst h
      split <;> exact ⟨ht, rfl⟩
    · rename_i r
      obtain ⟨hs, hc⟩ := hi r rfl
      have key := Props.C18_derived_clause_sound true false false s.st.units o.n (fun _ _ => []) o.m (bucket s.st.doubles) fresh St.empty r I
        ht.unit (fun _ _ t ht => by cases ht) (bucket_true ht) (fun ls => ⟨lits_fresh ls, fresh_addr⟩) Props.clean_empty
      split at h
      · cases h
      · cases h
      · cases h; exact ⟨ht, rfl⟩
      · rename_i hf
        exact (not_nil d ((key.1 _ hf).2 hc)).elim
      · rename_i l ls hf
        split at h
        · cases h
          exact ⟨enter_true ht (fun k hk => hs k (finish_sub hf k hk)) ((key.1 _ hf).2 hc), by simp [enter]⟩
        · cases h; exact ⟨ht, rfl⟩

theorem derives_true {I : Interp} (d : I.D) {o : Opt} : ∀ {is : List Inf} {s s' : LState}, derives o s is = some s' →
    (∀ i ∈ is, InfTrue S I i) → TrueIn S I s.st → TrueIn S I s'.st ∧ s'.st.active = s.st.active := by
  intro is
  induction is with
  | nil => intro s s' h _ ht; cases h; exact ⟨ht, rfl⟩
  | cons i is ih =>
    intro s s' h hi ht
    simp only [derives, Option.bind_eq_some_iff] at h
    obtain ⟨s1, h1, h2⟩ := h
    obtain ⟨t1, a1⟩ := derive1_true d h1 (hi i (by simp)) ht
    obtain ⟨t2, a2⟩ := ih h2 (fun j hj => hi j (.tail _ hj)) t1
    exact ⟨t2, a2.trans a1⟩

theorem factorAll_true {I : Interp} (hI : TruthOk I) {o : Opt} {g : List Lit} (hg : ∀ l ∈ g, Shape S l) (hc : ClTrue I g) :
    ∀ i ∈ factorAll o (fresh g), InfTrue S I i := by
  intro i hi r e
  refine ⟨factorAll_shape hg i hi r e, ?_⟩
  simp only [factorAll, List.mem_flatMap, List.mem_map, List.mem_range] at hi
  obtain ⟨a, _, b, _, rfl⟩ := hi
  refine Props.C14_factoring_sound I some (.some I) hI o.n (fresh g) a b r (fresh_stored fun l hl => (hg l hl).2) fresh_one e ?_
    (by rw [← lits_plain, lits_fresh]; exact hc)
  intro x y ex ey he
  have h1 := (fresh_get ex).1
  have h2 := (fresh_get ey).1
  have : a = b := by omega
  simp [factorInf, this] at e

theorem resolveAll_true {I : Interp} (hI : TruthOk I) {o : Opt} {active : List (List ALit)} {g : List Lit} {is : List Inf}
    (h : resolveAll o active (fresh g) = some is) (hg : ∀ l ∈ g, Shape S l) (hc : ClTrue I g)
    (ha : ∀ a ∈ active, ∃ r, a = fresh r ∧ (∀ l ∈ r, Shape S l) ∧ ClTrue I r) : ∀ i ∈ is, InfTrue S I i := by
  have hsh := resolveAll_shape h hg (fun a ha' => by obtain ⟨r, e, hr, _⟩ := ha a ha'; exact ⟨r, e, hr⟩)
  simp only [resolveAll, Option.bind_eq_some_iff] at h
  obtain ⟨ix, _, h⟩ := h
  intro i hi r e
  refine ⟨hsh i hi r e, ?_⟩
  obtain ⟨a, y, b, hy, rfl⟩ := resolveFrom_form h i hi
  obtain ⟨yl, rfl, hyl, hyc⟩ := ha y hy
  exact Props.C13_resolution_sound I some (.some I) hI o.n (fresh g) (fresh yl) a b r (fresh_stored fun l hl => (hg l hl).2)
    (fresh_stored fun l hl => (hyl l hl).2) fresh_one fresh_one e (by rw [← lits_plain, lits_fresh]; exact hc)
    (by rw [← lits_plain, lits_fresh]; exact hyc)

theorem Copy.tr {I : Interp} {bank : Nat} {ls r : List Lit} (h : Copy bank ls r) (hc : ClTrue I ls) : ClTrue I r := by
  obtain ⟨ren, rfl, _⟩ := h.ren
  exact hc.subst _

theorem Copy.shape {bank : Nat} (hb : bank < 4) {ls r : List Lit} (h : Copy bank ls r) (ho : ∀ l ∈ ls, Shape S l) : ∀ l ∈ r, Shape S l := by
  intro l hl
  have hv := h.vars l hl
  obtain ⟨ren, e, _⟩ := h.ren
  rw [e] at hl
  obtain ⟨k, hk, rfl⟩ := List.mem_map.1 hl
  obtain ⟨h1, h2⟩ := ho k hk
  refine ⟨pred_subst h1 (fun _ => over_var), fun w hw => ?_⟩
  have := (hv w hw).2
  omega

theorem useGiven_true {I : Interp} (d : I.D) (hI : TruthOk I) {o : Opt} {s s' : LState} {c : List ALit} {chg : Bool}
    (h : useGiven o s c chg = .next s') (hs : ∀ l ∈ lits c, Shape S l) (hc : ClTrue I (lits c)) (ht : TrueIn S I s.st) : TrueIn S I s'.st := by
  unfold useGiven at h
  split at h
  · cases h; exact ht
  · split at h
    · cases h
    · cases h; exact ht
    · split at h
      · cases h
      · cases h; exact ht
      · cases h; exact ht
      · rename_i g _ hcg
        split at h
        · cases h
        · cases h; exact ht
        · cases h; exact ht
        · rename_i a _ hca
          have C1 : Copy 1 (lits c) g := copy_spec hcg fun l hl => (hs l hl).2
          have gs := C1.shape (by omega) hs
          have C2 : Copy 2 g a := copy_spec hca fun l hl => (gs l hl).2
          have as := C2.shape (by omega) gs
          have gc := C1.tr hc
          have ac := C2.tr gc
          simp only at h
          split at h
          · cases h
          · rename_i s2 hd
            cases h
            simp only [Option.bind_eq_some_iff] at hd
            obtain ⟨s1, hd1, is, hra, hd2⟩ := hd
            have t0 : TrueIn S I { s.st with given := some (fresh g), active := s.st.active ++ [fresh a] } := by
              refine ⟨ht.pas, ?_, ht.unit, ht.dbl, ht.ref⟩
              intro b hb
              rcases List.mem_append.1 hb with hb | hb
              · exact ht.act b hb
              · rw [List.mem_singleton] at hb
                exact ⟨a, hb, as, ac⟩
            have t1 : TrueIn S I (if (chg && (fresh g).length == 2) = true then
                learn { s.st with given := some (fresh g), active := s.st.active ++ [fresh a] } (fresh g)
                else { s.st with given := some (fresh g), active := s.st.active ++ [fresh a] }) := by
              split
              · exact learn_true t0 (by rwa [lits_fresh])
              · exact t0
            obtain ⟨t2, a2⟩ := derives_true d hd1 (factorAll_true hI gs gc) t1
            exact (derives_true d hd2 (resolveAll_true hI hra gs gc t1.act) t2).1

theorem iter_true {I : Interp} (d : I.D) (hI : TruthOk I) {o : Opt} (ho : ∀ c, (o.sort c).Perm c) {s s' : LState} (h : iter o s = .next s')
    (ht : TrueIn S I s.st) : TrueIn S I s'.st := by
  unfold iter at h
  split at h
  · cases h
  · rename_i p hp
    simp only at h
    generalize hk : o.pick s.st.passive % s.st.passive.length = k at *
    have hpm : p ∈ s.st.passive := List.mem_of_getElem? hp
    obtain ⟨pa, ps, pc⟩ := ht.pas p hpm
    have hso : ∀ x, x ∈ lits (o.sort p) ↔ x ∈ lits p := fun x => ((ho p).map ALit.lit).mem_iff
    have sa : AddrOk (o.sort p) := fun l hl k hk => pa l ((ho p).mem_iff.1 hl) k ((ho p).mem_iff.1 hk)
    have sc : ClTrue I (lits (o.sort p)) := pc.mono fun l hl => (hso l).2 hl
    have ss : ∀ l ∈ lits (o.sort p), Shape S l := fun l hl => ps l ((hso l).1 hl)
    have hrec : ∀ x ∈ o.sort p, isRec x.atom = true := fun x hx => (ss x.lit (List.mem_map_of_mem hx)).rec
    have t0 : ∀ {g1 g2 : Option (List ALit)}, TrueIn S I { s.st with passive := s.st.passive.eraseIdx k, given := g1, cur := g2 } :=
      ⟨fun c hc => ht.pas c (List.mem_of_mem_eraseIdx hc), ht.act, ht.unit, ht.dbl, ht.ref⟩
    have key : ∀ {st : PState} {r : List Lit}, TrueIn S I st → simplify o st (o.sort p) = .ok r → ClTrue I r := by
      intro st r hst hs
      have hrw : ∀ xcl, Props.RwSound I (fun x => .ok (x, false)) xcl := by
        intro xcl x _ y w e
        cases e
        exact fun ρ => Iff.rfl
      unfold simplify at hs
      split at hs
      · rename_i x hf hx
        have hn : x.neg = false := by
          rw [hx] at hf
          simp only [isFact, Bool.and_eq_true, Bool.not_eq_true'] at hf
          exact hf.1
        refine (clTrue_iff ((Props.C18_simplify_fact_sound _ x hn I hI (hrw _)).1 r hs)).2 ?_
        rw [← lits_plain, ← hx]; exact sc
      · refine (clTrue_iff ((Props.C18_simplify_sound _ st.units o.m (bucket st.doubles) (o.sort p) I hI hst.unit (bucket_true hst) sa (hrw _) ?_).1 r hs)).2 sc
        intro x _ y w e
        cases e
        exact .inl ⟨rfl, rfl⟩
    split at h
    · cases h; exact t0
    · split at h
      · cases h
      · cases h
      · cases h; exact t0
      · rename_i hs
        exact (not_nil d (key t0 hs)).elim
      · exact useGiven_true d hI h ss sc t0
      · rename_i l ls hs
        refine useGiven_true d hI h ?_ ?_ t0
        · rw [lits_fresh]
          exact fun k hk => ss k ((simplify_ok hs hrec).subset hk)
        · rw [lits_fresh]; exact key t0 hs

theorem start_true {I : Interp} {o : Opt} : ∀ {input : List (List Lit)} {s : PState}, (∀ C ∈ input, (∀ l ∈ C, Shape S l) ∧ ClTrue I C) →
    TrueIn S I s → TrueIn S I (input.foldl (fun s cl => if tautCl o.m cl then s else enter s (fresh cl)) s) := by
  intro input
  induction input with
  | nil => intro s _ h; exact h
  | cons C input ih =>
    intro s hC h
    simp only [List.foldl_cons]
    refine ih (fun D hD => hC D (.tail _ hD)) ?_
    split
    · exact h
    · exact enter_true h (hC C (by simp)).1 (hC C (by simp)).2

theorem run_true {I : Interp} (d : I.D) (hI : TruthOk I) {o : Opt} (ho : ∀ c, (o.sort c).Perm c) : ∀ {k : Nat} {s s' : LState},
    run o k s = .next s' → TrueIn S I s.st → TrueIn S I s'.st := by
  intro k
  induction k with
  | zero => intro s s' h ht; simp only [run] at h; cases h; exact ht
  | succ k ih =>
    intro s s' h ht
    unfold run at h
    split at h
    · cases h; exact ht
    · split at h
      · rename_i s1 hs
        exact ih h (iter_true d hI ho hs ht)
      · rename_i hne
        exact absurd h (hne s')

/-- a run that finds a proof: the clauses are not all true in any interpretation -/
theorem refuted_false {I : Interp} (d : I.D) (hI : TruthOk I) {o : Opt} (ho : ∀ c, (o.sort c).Perm c) {input : List (List Lit)}
    (hin : ∀ C ∈ input, ∀ l ∈ C, Shape S l) {k : Nat} {s : LState} (h : run o k (start o input) = .next s) (hr : s.st.refuted = true) :
    ¬ ∀ C ∈ input, ClTrue I C := by
  intro hc
  have t0 : TrueIn S I (start o input).st := by
    refine start_true (fun C hC => ⟨hin C hC, hc C hC⟩) ⟨by simp [PState.init], by simp [PState.init], ?_, by simp [PState.init], rfl⟩
    intro b t hu
    simp [PState.init, Props.Units.has] at hu
  have := (run_true d hI ho h t0).ref
  rw [hr] at this
  cases this

end Gkc.Loop
