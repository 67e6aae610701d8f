import Verif.HistLemmas
/-
C48: the proof listing.  Spec: HistSpec.lean.
-/
namespace Gkc.Props
open Gkc.Hist

/-- a store of clauses with their histories: clause `c` was obtained by `step c` from clauses made
before it -/
structure HistStore (S : Nat → HRec) (step : Nat → Step) : Prop where
  made : ∀ c, Made (S c) (step c)
  fits : ∀ c, (step c).Fits
  quiet : ∀ c, QuietPast (S c) (step c)
  order : ∀ c, ∀ p ∈ (step c).premises, p < c

/-- the last step -/
structure HistEnd (fin : HRec) (st : Step) (n : Nat) : Prop where
  made : Made fin st
  fits : st.Fits
  quiet : QuietPast fin st
  pos : 0 < n
  depth : ∀ p ∈ st.premises, p + 1 < n

theorem step_items_congr {f g : Nat → Nat} (st : Step) (h : ∀ p ∈ st.premises, f p = g p) :
    st.items f = st.items g := by
  have hm : ∀ cs : List Nat, (∀ c ∈ cs, f c = g c) → cs.map (bare f) = cs.map (bare g) := by
    intro cs hcs
    exact List.map_congr_left (fun c hc => by simp [bare, hcs c hc])
  cases st with
  | input => rfl
  | extprop => rfl
  | resolve c1 p1 c2 p2 cuts =>
    simp only [Step.premises, List.mem_cons] at h
    simp only [Step.items, lit]
    rw [hm cuts (fun c hc => h c (by simp [hc])), h c1 (by simp), h c2 (by simp)]
  | instgen c1 p1 c2 p2 cuts =>
    simp only [Step.premises, List.mem_cons] at h
    simp only [Step.items, lit]
    rw [hm cuts (fun c hc => h c (by simp [hc])), h c1 (by simp), h c2 (by simp)]
  | propagate c1 p1 c2 p2 =>
    simp only [Step.premises, List.mem_cons] at h
    simp only [Step.items, lit]
    rw [h c1 (by simp), h c2 (by simp)]
  | factor c p1 p2 cuts =>
    simp only [Step.premises, List.mem_cons] at h
    simp only [Step.items]
    rw [hm cuts (fun c hc => h c (by simp [hc])), h c (by simp)]
  | reflex c p1 cuts =>
    simp only [Step.premises, List.mem_cons] at h
    simp only [Step.items]
    rw [hm cuts (fun c hc => h c (by simp [hc])), h c (by simp)]
  | para given eq pe left into pi path cuts =>
    simp only [Step.premises, List.mem_cons] at h
    simp only [Step.items]
    rw [hm cuts (fun c hc => h c (by simp [hc])), h eq (by simp), h into (by simp)]
  | simplify c cuts rews =>
    simp only [Step.premises, List.mem_cons, List.mem_append] at h
    simp only [Step.items, bare]
    have h1 := hm cuts (fun c hc => h c (by simp [hc]))
    have h2 := hm rews (fun c hc => h c (by simp [hc]))
    simp only [h c (by simp)]
    rw [h1, h2]
  | propinst c term cuts =>
    simp only [Step.premises, List.mem_cons] at h
    simp only [Step.items]
    rw [hm cuts (fun c hc => h c (by simp [hc])), show bare f c = bare g c by simp [bare, h c (by simp)]]
  | arithinst c subst cuts =>
    simp only [Step.premises, List.mem_cons] at h
    simp only [Step.items]
    rw [hm cuts (fun c hc => h c (by simp [hc])), show bare f c = bare g c by simp [bare, h c (by simp)]]

/-- what the numbering gives -/
theorem hist_numbered {S : Nat → HRec} {step : Nat → Step} (hS : HistStore S step) {fin : HRec} {st : Step} {n : Nat}
    (hE : HistEnd fin st n) :
    ∃ s cs, flat S n fin ⟨1, []⟩ = .ok s ∧ Num step st s cs ∧ ∀ p ∈ st.premises, p ∈ cs := by
  have hpar : ∀ c, parents (S c) = some (step c).premises :=
    fun c => parents_made (hS.made c) (hS.fits c) (hS.quiet c)
  have h0 : Num step st ⟨1, []⟩ [] :=
    ⟨rfl, rfl, List.nodup_nil, (by intro l c r e; cases l <;> cases e), (by simp)⟩
  obtain ⟨s, r, h1, h2, h3⟩ := flat_num hpar hS.order n fin st.premises
    (parents_made hE.made hE.fits hE.quiet) hE.pos hE.depth (fun p hp => .last hp) _ _ h0
  exact ⟨s, r, h1, by simpa using h2, by simpa using h3⟩

theorem before_idx {step : Nat → Step} {cs : List Nat} (hb : Before step cs) {c p : Nat} (hc : c ∈ cs)
    (hp : p ∈ (step c).premises) : p ∈ cs ∧ cs.idxOf p < cs.idxOf c := by
  obtain ⟨l, r, e, hnc⟩ : ∃ l r, cs = l ++ c :: r ∧ c ∉ l := by
    clear hb hp
    induction cs with
    | nil => cases hc
    | cons a cs ih =>
      by_cases h : c = a
      · subst h; exact ⟨[], cs, rfl, by simp⟩
      · obtain ⟨l, r, e, hn⟩ := ih (by simpa [h] using hc)
        exact ⟨a :: l, r, by rw [e]; rfl, by simp [h, hn]⟩
  have hpl := hb l c r e p hp
  subst e
  refine ⟨List.mem_append_left _ hpl, ?_⟩
  rw [List.idxOf_append, if_pos hpl, List.idxOf_append, if_neg hnc]
  have := List.idxOf_lt_length_of_mem hpl
  omega

/-- C48.  The listing of a proof consists of one line for every clause used, each once, and a line for the
last step; lines are numbered from 1 in order; every line names the rule of the step by which its clause
was obtained, and the clauses used in it with the numbers of their lines, which come before, and the
positions of the literals used.  Missing: what `Step.Fits` and `QuietPast` exclude, see the theorems
below. -/
theorem C48_listing_partial {S : Nat → HRec} {step : Nat → Step} (hS : HistStore S step) {fin : HRec} {st : Step}
    {n : Nat} (hE : HistEnd fin st n) (ans : Option Nat) :
    ∃ cs : List Nat, cs.Nodup ∧ (∀ c, c ∈ cs ↔ Used step st c) ∧
      (∀ c ∈ cs, ∀ p ∈ (step c).premises, cs.idxOf p < cs.idxOf c) ∧
      listing S n fin ans = some (
        cs.map (fun c => ⟨cs.idxOf c + 1, (step c).rule, (step c).items (fun p => cs.idxOf p + 1),
          (step c).shows (some c)⟩) ++
        [⟨cs.length + 1, st.rule, st.items (fun p => cs.idxOf p + 1), st.shows ans⟩]) := by
  obtain ⟨s, cs, h1, h2, h3⟩ := hist_numbered hS hE
  refine ⟨cs, h2.nodup, fun c => ⟨h2.used c, fun hu => ?_⟩, fun c hc p hp => (before_idx h2.before hc hp).2, ?_⟩
  · induction hu with
    | last h => exact h3 _ h
    | back _ hp ih => exact (before_idx h2.before ih hp).1
  · unfold listing
    simp only [h1, h2.assoc, h2.clnr]
    congr 1
    have hfin : printOne (cs.zipIdx 1) fin ans (cs.length + 1)
        = ⟨cs.length + 1, st.rule, st.items (fun p => cs.idxOf p + 1), st.shows ans⟩ := by
      rw [print_made hE.made hE.fits,
        step_items_congr (g := fun p => cs.idxOf p + 1) st (fun p hp => numOf_zipIdx (h3 p hp))]
    rw [hfin]
    congr 1
    apply List.ext_getElem
    · simp
    · intro i hi1 hi2
      have hi : i < cs.length := by simpa using hi1
      simp only [List.getElem_map, List.getElem_zipIdx]
      have hc : cs[i] ∈ cs := List.getElem_mem hi
      rw [print_made (hS.made _) (hS.fits _),
        step_items_congr (g := fun p => cs.idxOf p + 1) _
          (fun p hp => numOf_zipIdx (before_idx h2.before hc hp).1), h2.nodup.idxOf_getElem i hi, Nat.add_comm 1 i]

/-- a line accepted by a reader: if the clauses of the lines it names hold, its own clause holds -/
def LineFollows (holds : Option Nat → Prop) (ls : List Line) (l : Line) : Prop :=
  (∀ num pos side, Item.ref num pos side ∈ l.items → ∀ l' ∈ ls, l'.num = num → holds l'.cl) → holds l.cl

theorem refs_premises (st : Step) (no : Nat → Nat) {num : Nat} {pos : List Nat} {side : Option Bool}
    (h : Item.ref num pos side ∈ st.items no) : ∃ p ∈ st.premises, num = no p := by
  cases st <;> simp only [Step.items, Step.premises, lit, bare] at h ⊢ <;>
    grind [bare]

/-- every number named in a line is the number of exactly one line, an earlier one -/
theorem C48_references {S : Nat → HRec} {step : Nat → Step} (hS : HistStore S step) {fin : HRec} {st : Step} {n : Nat}
    (hE : HistEnd fin st n) (ans : Option Nat) {ls : List Line} (hl : listing S n fin ans = some ls) :
    ∀ l ∈ ls, ∀ num pos side, Item.ref num pos side ∈ l.items →
      ∃ l' ∈ ls, l'.num = num ∧ num < l.num ∧ ∀ l'' ∈ ls, l''.num = num → l'' = l' := by
  obtain ⟨cs, hnd, hu, hb, he⟩ := C48_listing_partial hS hE ans
  rw [hl] at he
  simp only [Option.some.injEq] at he
  have key : ∀ p ∈ cs, ∀ m, cs.idxOf p + 1 < m → m ≤ cs.length + 1 → ∃ l' ∈ ls, l'.num = cs.idxOf p + 1 ∧
      cs.idxOf p + 1 < m ∧ ∀ l'' ∈ ls, l''.num = cs.idxOf p + 1 → l'' = l' := by
    intro p hp m hm _
    subst he
    refine ⟨_, List.mem_append_left _ (List.mem_map.2 ⟨p, hp, rfl⟩), rfl, hm, ?_⟩
    intro l'' hl'' e
    have hlt := List.idxOf_lt_length_of_mem hp
    rcases List.mem_append.1 hl'' with h | h
    · obtain ⟨q, hq, rfl⟩ := List.mem_map.1 h
      have e' : cs.idxOf q = cs.idxOf p := by simp only at e; omega
      have hqp : q = p := by
        have h1 := List.getElem_idxOf (List.idxOf_lt_length_of_mem hq)
        have h2 := List.getElem_idxOf hlt
        rw [← h1, ← h2]; simp only [e']
      rw [hqp]
    · simp only [List.mem_singleton] at h
      subst h
      simp only at e; omega
  intro l hlm num pos side hr
  have hlm' := hlm
  rw [he] at hlm'
  rcases List.mem_append.1 hlm' with h | h
  · obtain ⟨c, hc, rfl⟩ := List.mem_map.1 h
    obtain ⟨p, hp, rfl⟩ := refs_premises _ _ hr
    have hpc : p ∈ cs := (hu p).2 (.back ((hu c).1 hc) hp)
    have := hb c hc p hp
    have := List.idxOf_lt_length_of_mem hc
    exact key p hpc _ (by simp only; omega) (by simp only; omega)
  · simp only [List.mem_singleton] at h
    subst h
    obtain ⟨p, hp, rfl⟩ := refs_premises _ _ hr
    have hpc : p ∈ cs := (hu p).2 (.last hp)
    have := List.idxOf_lt_length_of_mem hpc
    exact key p hpc _ (by simp only; omega) (by simp only; omega)

/-- a reader who accepts the input lines and every other line by itself may accept the result -/
theorem C48_checkable {S : Nat → HRec} {step : Nat → Step} (hS : HistStore S step) {fin : HRec} {st : Step} {n : Nat}
    (hE : HistEnd fin st n) (ans : Option Nat) {ls : List Line} (hl : listing S n fin ans = some ls)
    (holds : Option Nat → Prop) (hin : ∀ l ∈ ls, l.rule = .input → holds l.cl)
    (hstep : ∀ l ∈ ls, l.rule ≠ .input → LineFollows holds ls l) : ∀ l ∈ ls, holds l.cl := by
  have hr := C48_references hS hE ans hl
  have main : ∀ m, ∀ l ∈ ls, l.num = m → holds l.cl := by
    intro m
    induction m using Nat.strongRecOn with
    | _ m ih =>
      intro l hlm e
      by_cases hi : l.rule = .input
      · exact hin l hlm hi
      · refine hstep l hlm hi (fun num pos side hmem l' hl' e' => ?_)
        obtain ⟨l1, _, _, hlt, _⟩ := hr l hlm num pos side hmem
        exact ih num (by omega) l' hl' e'
  exact fun l hlm => main l.num l hlm rfl

theorem subst_words_length (subst : List (Nat × W)) :
    (subst.flatMap (fun s => [W.int (BitVec.ofNat 64 s.1), s.2])).length = 2 * subst.length := by
  induction subst with
  | nil => rfl
  | cons a as ih =>
    rw [List.flatMap_cons, List.length_append, ih]; simp only [List.length_cons, List.length_nil]; omega

/-- the numbers shown in the TPTP format for a step which is not a propositional instance -/
theorem tptp_made {h : HRec} {st : Step} (hm : Made h st) (hf : st.Fits) (hpi : ∀ c t cuts, st ≠ .propinst c t cuts)
    (assoc : List (Nat × Nat)) : printTptp assoc h = st.premises.map (numOf assoc) := by
  -- the numbers are those of the items in the other formats
  obtain ⟨pre, hp, he⟩ := hm
  obtain ⟨fields, past⟩ := h
  simp only at he
  subst he
  have plain : ∀ (d : BitVec 64) (ps : List Nat), tagOf d ≠ 10 → tagOf d ≠ 3 →
      printTptp assoc ⟨pre ++ .int d :: ps.map .cls, past⟩ = ps.map (numOf assoc) := by
    intro d ps h10 h3
    unfold printTptp
    rw [if_neg (built_length hp d _), show (5 : Nat) = 5 + 0 from rfl, get_at hp past (.int d :: _) 0 (.int d) rfl]
    simp only
    rw [if_neg h10]
    simp only [if_neg h3]
    have := map_fields hp past (.int d :: ps.map .cls) 1 (ps.map .cls) rfl
      (fun i => wordNum assoc ((HRec.mk (pre ++ .int d :: ps.map .cls) past).get i)) (wordNum assoc) (fun i _ => rfl)
    rw [List.length_map, List.map_map] at this
    rw [range_filter, show (pre ++ W.int d :: ps.map W.cls).length - 6 = ps.length by simp [hp]; omega,
      show (6 : Nat) = 5 + 1 from rfl, this]
    rfl
  cases st with
  | input =>
    unfold printTptp
    exact if_pos hp
  | resolve c1 p1 c2 p2 cuts =>
    obtain ⟨d, hd, ht, -⟩ := head_parts 1 p1 p2 false (by omega)
    simp only [Step.build, mkTwo, cutVec_eq hf.2.2, hd]
    exact plain d (c1 :: c2 :: cuts) (by omega) (by omega)
  | instgen c1 p1 c2 p2 cuts =>
    obtain ⟨d, hd, ht, -⟩ := head_parts 8 p1 p2 false (by omega)
    simp only [Step.build, mkTwo, cutVec_eq hf.2.2, hd]
    exact plain d (c1 :: c2 :: cuts) (by omega) (by omega)
  | propagate c1 p1 c2 p2 =>
    obtain ⟨d, hd, ht, -⟩ := head_parts 6 p1 p2 false (by omega)
    simp only [Step.build, mkTwo, hd]
    exact plain d [c1, c2] (by omega) (by omega)
  | factor c p1 p2 cuts =>
    obtain ⟨d, hd, ht, -⟩ := head_parts 2 p1 p2 false (by omega)
    simp only [Step.build, mkFactor, cutVec_eq hf.2.2, hd]
    exact plain d (c :: cuts) (by omega) (by omega)
  | reflex c p1 cuts =>
    obtain ⟨d, hd, ht, -⟩ := head_parts 4 p1 0 false (by omega)
    simp only [Step.build, mkFactor, cutVec_eq hf.2, hd]
    exact plain d (c :: cuts) (by omega) (by omega)
  | para given eq pe left into pi path cuts =>
    have para : ∀ p1 p2, printTptp assoc ⟨mkPara pre eq p1 into p2 path left cuts, past⟩
        = (eq :: into :: cuts).map (numOf assoc) := by
      intro p1 p2
      obtain ⟨d, hd, ht, -⟩ := head_parts 3 p1 p2 left (by omega)
      unfold mkPara
      rw [hd]
      unfold printTptp
      rw [if_neg (built_length hp d _), show (5 : Nat) = 5 + 0 from rfl, get_at hp past (.int d :: _) 0 (.int d) rfl]
      simp only
      rw [if_neg (by omega)]
      simp only [if_pos ht]
      generalize hr : (W.int d :: W.int (BitVec.ofNat 64 path) :: W.cls eq :: W.cls into :: cuts.map W.cls) = rest
      have hl : rest.length = cuts.length + 4 := by subst hr; simp
      have := map_fields hp past rest 2 ((eq :: into :: cuts).map .cls) (by subst hr; rfl)
        (fun i => wordNum assoc ((HRec.mk (pre ++ rest) past).get i)) (wordNum assoc) (fun i _ => rfl)
      rw [List.length_map, List.map_map] at this
      rw [range_filter, show (pre ++ rest).length - 7 = (eq :: into :: cuts).length by simp [hp, hl]; omega,
        show (7 : Nat) = 5 + 2 from rfl, this]
      rfl
    simp only [Step.build, paraRecord, cutVec_eq hf.2.2.1]
    split
    · exact para pe pi
    · exact para pi pe
  | simplify c cuts rews =>
    obtain ⟨d, hd, ht, -⟩ := head_parts 5 0 0 false (by omega)
    simp only [Step.build, mkSimplify, cutVec_eq hf, hd]
    rw [← List.map_append]
    exact plain d (c :: (cuts ++ rews)) (by omega) (by omega)
  | propinst c term cuts => exact absurd rfl (hpi c term cuts)
  | extprop =>
    obtain ⟨d, hd, ht, -⟩ := head_parts 9 0 0 false (by omega)
    simp only [Step.build, mkExtprop, hd]
    exact plain d [] (by omega) (by omega)
  | arithinst c subst cuts =>
    obtain ⟨hs, hc, -⟩ := hf
    obtain ⟨d, hd, ht, -⟩ := head_parts 10 0 0 false (by omega)
    have hk := small64 (n := cuts.length) (by omega)
    have hn := small64 (n := subst.length) (by omega)
    simp only [Step.build, cutVec_eq hc, mkArithinst, hd]
    unfold printTptp
    rw [if_neg (built_length hp d _)]
    generalize hr : (W.int d :: W.cls c :: W.int (BitVec.ofNat 64 subst.length) ::
      (subst.flatMap (fun s => [W.int (BitVec.ofNat 64 s.1), s.2]) ++
        W.int (BitVec.ofNat 64 cuts.length) :: cuts.map W.cls)) = rest
    have hfl := subst_words_length subst
    have g0 := get_at hp past rest 0 (.int d) (by subst hr; rfl)
    have g1 := get_at hp past rest 1 (.cls c) (by subst hr; rfl)
    have g2 := get_at hp past rest 2 (.int (BitVec.ofNat 64 subst.length)) (by subst hr; rfl)
    have g5 := get_at hp past rest (3 + 2 * subst.length) (.int (BitVec.ofNat 64 cuts.length)) (by
      subst hr
      rw [show 3 + 2 * subst.length = 2 * subst.length + 1 + 1 + 1 by omega]
      simp only [List.getElem?_cons_succ]
      rw [List.getElem?_append_right (by omega), hfl]; simp)
    rw [show (5 : Nat) = 5 + 0 from rfl, g0]
    simp only [ht, if_true]
    rw [show (6 : Nat) = 5 + 1 from rfl, g1, show (7 : Nat) = 5 + 2 from rfl, g2]
    simp only [intOf, hn]
    rw [show 8 + 2 * subst.length = 5 + (3 + 2 * subst.length) by omega, g5]
    simp only [hk]
    have := map_fields_range hp past rest (3 + 2 * subst.length + 1) (cuts.map .cls) (by
        subst hr
        rw [show 3 + 2 * subst.length + 1 = 2 * subst.length + 1 + 1 + 1 + 1 by omega]
        simp only [List.drop_succ_cons]
        rw [List.drop_append, hfl, List.drop_eq_nil_of_le (by omega)]
        simp)
      (fun i => wordNum assoc ((HRec.mk (pre ++ rest) past).get i)) (wordNum assoc) (fun i _ => rfl)
    rw [List.length_map, List.map_map] at this
    rw [show 5 + (3 + 2 * subst.length) + 1 = 5 + (3 + 2 * subst.length + 1) by omega, this]
    rfl

/-- C48 for the TPTP format: the numbers between the last brackets are those of the clauses used, for all
steps which are not propositional instances. -/
theorem C48_tptp_partial {S : Nat → HRec} {step : Nat → Step} (hS : HistStore S step) {fin : HRec} {st : Step}
    {n : Nat} (hE : HistEnd fin st n) (hpi : ∀ c t cuts, st ≠ .propinst c t cuts)
    (hpi' : ∀ a c t cuts, step a ≠ .propinst c t cuts) :
    ∃ cs : List Nat, cs.Nodup ∧ (∀ c, c ∈ cs ↔ Used step st c) ∧
      (∀ c ∈ cs, ∀ p ∈ (step c).premises, cs.idxOf p < cs.idxOf c) ∧
      listingTptp S n fin = some (
        cs.map (fun c => (cs.idxOf c + 1, (step c).premises.map (fun p => cs.idxOf p + 1))) ++
        [(cs.length + 1, st.premises.map (fun p => cs.idxOf p + 1))]) := by
  obtain ⟨s, cs, h1, h2, h3⟩ := hist_numbered hS hE
  refine ⟨cs, h2.nodup, fun c => ⟨h2.used c, fun hu => ?_⟩, fun c hc p hp => (before_idx h2.before hc hp).2, ?_⟩
  · induction hu with
    | last h => exact h3 _ h
    | back _ hp ih => exact (before_idx h2.before ih hp).1
  · unfold listingTptp
    simp only [h1, h2.assoc, h2.clnr]
    congr 1
    rw [tptp_made hE.made hE.fits hpi,
      List.map_congr_left (g := fun p => cs.idxOf p + 1) (fun p hp => numOf_zipIdx (h3 p hp))]
    congr 1
    apply List.ext_getElem
    · simp
    · intro i hi1 hi2
      have hi : i < cs.length := by simpa using hi1
      simp only [List.getElem_map, List.getElem_zipIdx]
      have hc : cs[i] ∈ cs := List.getElem_mem hi
      rw [tptp_made (hS.made _) (hS.fits _) (hpi' _),
        List.map_congr_left (g := fun p => cs.idxOf p + 1)
          (fun p hp => numOf_zipIdx (before_idx h2.before hc hp).1), h2.nodup.idxOf_getElem i hi, Nat.add_comm 1 i]

/-! ### examples and what does not hold -/

/-- first five fields -/
def hpre : List W := [.null, .null, .null, .null, .null]

/-- a record for a step -/
def hrec (st : Step) : HRec := ⟨st.build hpre, fun _ => .null⟩

theorem hrec_made (st : Step) : Made (hrec st) st := ⟨hpre, rfl, rfl⟩

theorem hrec_quiet (st : Step) : QuietPast (hrec st) st := by
  intro _ d h; cases h

/-- clauses 0, 1, 2 are input, 3 is got from 0 and 1 with 2 cutting, 4 by rewriting 3 with 0, the others are
input -/
def exStep : Nat → Step
  | 3 => .resolve 0 1 1 0 [2]
  | 4 => .para true 0 0 true 3 1 5 []
  | _ => .input

example : HistStore (fun c => hrec (exStep c)) exStep ∧ HistEnd (hrec (.simplify 4 [2] [1])) (.simplify 4 [2] [1]) 7 := by
  refine ⟨⟨fun c => hrec_made _, fun c => ?_, fun c => hrec_quiet _, fun c => ?_⟩,
    ⟨hrec_made _, by simp [Step.Fits], hrec_quiet _, by decide, by decide⟩⟩
  · unfold exStep; split <;> simp [Step.Fits]
  · unfold exStep; split <;> simp [Step.premises]

example : listing (fun c => hrec (exStep c)) 7 (hrec (.simplify 4 [2] [1])) none = some [
    ⟨1, .input, [], some 0⟩, ⟨2, .input, [], some 1⟩, ⟨3, .input, [], some 2⟩,
    ⟨4, .mp, [.ref 1 [1] none, .ref 2 [] none, .ref 3 [] none], some 3⟩,
    ⟨5, .para, [.ref 1 [] none, .ref 4 [1, 5] none], some 4⟩,
    ⟨6, .simp, [.ref 5 [] none, .ref 3 [] none, .ref 2 [] none], none⟩] := by decide +kernel

/-- a position from 16 on is shown wrongly: literal 16 as no position at all -/
theorem C48_position_lost : listing (fun _ => hrec .input) 9 (hrec (.resolve 0 16 1 17 [])) none = some [
    ⟨1, .input, [], some 0⟩, ⟨2, .input, [], some 1⟩,
    ⟨3, .mp, [.ref 1 [] none, .ref 2 [1] none], none⟩] := by decide +kernel

/-- paramodulation into the given clause: the positions of the two literals are exchanged -/
theorem C48_para_exchanged :
    (Step.para false 0 2 false 1 3 1 []).items (fun p => p + 1) = [.ref 1 [2] (some false), .ref 2 [3, 1] none] ∧
    listing (fun _ => hrec .input) 9 (hrec (.para false 0 2 false 1 3 1 [])) none = some [
      ⟨1, .input, [], some 0⟩, ⟨2, .input, [], some 1⟩,
      ⟨3, .para, [.ref 1 [3] (some false), .ref 2 [2, 1] none], none⟩] := by decide +kernel

/-- of 99 cutting clauses the last is missing in the listing -/
theorem C48_cut_lost : ∃ ls, listing (fun _ => hrec .input) 200 (hrec (.reflex 0 0 ((List.range 99).map (· + 1)))) none = some ls ∧
    99 ∈ (Step.reflex 0 0 ((List.range 99).map (· + 1))).premises ∧ ∀ l ∈ ls, l.cl ≠ some 99 := by
  have h : (match listing (fun _ => hrec .input) 200 (hrec (.reflex 0 0 ((List.range 99).map (· + 1)))) none with
    | some ls => decide (∀ l ∈ ls, l.cl ≠ some 99)
    | none => false) = true := by decide +kernel
  have h99 : 99 ∈ (Step.reflex 0 0 ((List.range 99).map (· + 1))).premises := by decide +kernel
  revert h
  generalize listing (fun _ => hrec .input) 200 (hrec (.reflex 0 0 ((List.range 99).map (· + 1)))) none = o
  intro h
  cases o with
  | none => cases h
  | some ls => exact ⟨ls, rfl, h99, of_decide_eq_true h⟩

/-- an input record followed in memory by a word that reads as the head of an arithmetic instance: the
listing is undefined -/
theorem C48_input_read_past : ∃ h : HRec, Made h .input ∧
    flat (fun _ => h) 5 (hrec (.reflex 0 0 [])) ⟨1, []⟩ = .ub := by
  refine ⟨⟨hpre, fun i => if i = 0 then head 10 0 0 false else .null⟩, ⟨hpre, rfl, rfl⟩, ?_⟩
  rfl

/-- in the TPTP format the term of a propositional instance is listed as premise '0' -/
theorem C48_tptp_propinst : listingTptp (fun _ => hrec .input) 9 (hrec (.propinst 0 (.other 3) [])) = some [
    (1, []), (2, [1, 0])] := by decide +kernel

/-- the result of the external solver is listed without any premise, and nothing else is listed -/
theorem C48_extprop_alone (S : Nat → HRec) (n : Nat) (ans : Option Nat) :
    listing S (n + 1) (hrec .extprop) ans = some [⟨1, .extprop, [], none⟩] := by
  unfold listing
  simp only [flat, parents_made (hrec_made .extprop) trivial (hrec_quiet _), Step.premises, visitAll]
  rw [print_made (hrec_made .extprop) trivial]; rfl

end Gkc.Props
