import Verif.HistSpec
/-
Lemmas on history records and the numbering of clauses.
-/
namespace Gkc.Hist

theorem clamp_lt (p : Nat) : clamp p < 256 := by unfold clamp; split <;> omega
theorem clamp_id {p : Nat} (h : p < 256) : clamp p = p := by unfold clamp; split <;> omega

/-- the number put together by `|` is a sum -/
theorem headNat (tag p1 p2 : Nat) (left : Bool) :
    (((tag <<< 20) ||| (clamp p1 <<< 8) ||| clamp p2) ||| (if left then 1 <<< 16 else 0))
      = tag * 2 ^ 20 + (if left then 2 ^ 16 else 0) + clamp p1 * 2 ^ 8 + clamp p2 := by
  have h1 := clamp_lt p1
  have h2 := clamp_lt p2
  generalize clamp p1 = a at *
  generalize clamp p2 = b at *
  have e1 : a <<< 8 ||| b = 2 ^ 8 * a + b := by
    rw [Nat.two_pow_add_eq_or_of_lt (by omega), Nat.shiftLeft_eq, Nat.mul_comm]
  have e2 : ∀ x : Nat, x < 2 ^ 20 → (tag <<< 20) ||| x = 2 ^ 20 * tag + x := by
    intro x hx
    rw [Nat.two_pow_add_eq_or_of_lt hx, Nat.shiftLeft_eq, Nat.mul_comm]
  rw [Nat.or_assoc (tag <<< 20) (a <<< 8) b, e1]
  cases left
  · simp only [Bool.false_eq_true, if_false, Nat.or_zero]
    rw [e2 _ (by omega)]; omega
  · simp only [if_true]
    rw [Nat.or_assoc]
    have e3 : (2 ^ 8 * a + b) ||| 1 <<< 16 = 2 ^ 16 * 1 + (2 ^ 8 * a + b) := by
      have e4 := Nat.two_pow_add_eq_or_of_lt (i := 16) (b := 2 ^ 8 * a + b) (by omega) 1
      rw [e4, Nat.or_comm, Nat.shiftLeft_eq, Nat.mul_comm]
    rw [e3, e2 _ (by omega)]; omega

/-- the parts of the head -/
theorem head_parts (tag p1 p2 : Nat) (left : Bool) (ht : tag < 16) :
    ∃ d, head tag p1 p2 left = .int d ∧ tagOf d = tag ∧ pos1Of d = clamp p1 % 16 ∧
      pos2Of d = clamp p2 % 16 ∧ extraOf d = if left then 1 else 0 := by
  have h1 := clamp_lt p1
  have h2 := clamp_lt p2
  refine ⟨_, rfl, ?_⟩
  simp only [tagOf, pos1Of, pos2Of, extraOf]
  rw [headNat, BitVec.toNat_ofNat]
  generalize clamp p1 = a at *
  generalize clamp p2 = b at *
  cases left
  · simp only [Bool.false_eq_true, if_false]
    rw [Nat.mod_eq_of_lt (by omega)]
    refine ⟨?_, ?_, ?_, ?_⟩ <;> omega
  · simp only [if_true]
    rw [Nat.mod_eq_of_lt (by omega)]
    refine ⟨?_, ?_, ?_, ?_⟩ <;> omega

theorem cutFold (cs : List Nat) (n : Nat) (v : List Nat) (h : n + cs.length ≤ 98) :
    (cs.foldl pushCut (n, v)) = (n + cs.length, v ++ cs) := by
  induction cs generalizing n v with
  | nil => simp
  | cons c cs ih =>
    simp only [List.length_cons] at h
    simp only [List.foldl_cons, pushCut]
    rw [if_pos (by omega), ih _ _ (by omega)]
    simp; omega

theorem cutVec_eq {cs : List Nat} (h : cs.length ≤ 98) : cutVec cs = cs := by
  unfold cutVec; rw [cutFold cs 0 [] (by omega)]; simp

theorem clsAll_map (cs : List Nat) : clsAll (cs.map .cls) = some cs := by
  induction cs with
  | nil => rfl
  | cons c cs ih => simp only [List.map_cons, clsAll, clsOf, ih]

/-! ### fields by position -/

theorem range_filter (n k : Nat) : (List.range n).filter (fun i => decide (k ≤ i)) = List.range' k (n - k) := by
  induction n with
  | zero => simp
  | succ n ih =>
    rw [List.range_succ, List.filter_append, ih]
    by_cases h : k ≤ n
    · rw [show n + 1 - k = (n - k) + 1 by omega, List.range'_concat]
      simp [h]
    · simp [h]; omega

theorem get_at {pre : List W} (hp : pre.length = 5) (past : Nat → W) (rest : List W) (i : Nat) (w : W)
    (h : rest[i]? = some w) : (HRec.mk (pre ++ rest) past).get (5 + i) = w := by
  unfold HRec.get
  rw [show (HRec.mk (pre ++ rest) past).fields = pre ++ rest from rfl,
    List.getElem?_append_right (by omega), hp, show 5 + i - 5 = i by omega, h]; rfl

/-- the fields from position `5 + k` on -/
theorem map_fields {β : Type} {pre : List W} (hp : pre.length = 5) (past : Nat → W) (rest : List W) (k : Nat)
    (ws : List W) (h : rest.drop k = ws) (G : Nat → β) (F : W → β)
    (hG : ∀ i, i ≥ 5 + k → G i = F ((HRec.mk (pre ++ rest) past).get i)) :
    (List.range' (5 + k) ws.length).map G = ws.map F := by
  induction ws generalizing k with
  | nil => rfl
  | cons w ws ih =>
    simp only [List.length_cons, List.range'_succ, List.map_cons]
    have hk : rest[k]? = some w := by
      have := congrArg (fun l : List W => l[0]?) h
      simpa using this
    rw [hG _ (by omega), get_at hp past rest k w hk]
    have h' : rest.drop (k + 1) = ws := by
      have := congrArg List.tail h
      simpa [List.tail_drop] using this
    rw [show 5 + k + 1 = 5 + (k + 1) by omega, ih (k + 1) h' (fun i hi => hG i (by omega))]

theorem map_fields_range {β : Type} {pre : List W} (hp : pre.length = 5) (past : Nat → W) (rest : List W) (k : Nat)
    (ws : List W) (h : rest.drop k = ws) (G : Nat → β) (F : W → β)
    (hG : ∀ i, i ≥ 5 + k → G i = F ((HRec.mk (pre ++ rest) past).get i)) :
    (List.range ws.length).map (fun i => G (5 + k + i)) = ws.map F := by
  rw [← map_fields hp past rest k ws h G F hG, List.range'_eq_map_range, List.map_map]
  rfl

/-! ### parents of the records made -/

theorem parents_plain {pre : List W} (hp : pre.length = 5) (past : Nat → W) (d : BitVec 64) (rest : List W)
    (h1 : 1 ≤ tagOf d) (h8 : tagOf d ≤ 8) (h7 : tagOf d ≠ 7) (h3 : tagOf d ≠ 3) :
    parents ⟨pre ++ .int d :: rest, past⟩ = clsAll rest := by
  unfold parents
  rw [show (5 : Nat) = 5 + 0 from rfl, get_at hp past (.int d :: rest) 0 (.int d) rfl]
  simp only
  rw [if_neg (by omega), if_pos ⟨h1, h8⟩]
  have hf : (fun i => decide ((if tagOf d = 3 then 7 else 6) ≤ i) && !(tagOf d == 7 && i == 7))
      = fun i => decide (6 ≤ i) := by
    funext i; simp [h7, h3]
  rw [hf, range_filter, show (pre ++ W.int d :: rest).length - 6 = rest.length by simp [hp]; omega]
  have := map_fields hp past (.int d :: rest) 1 rest rfl
    (HRec.get ⟨pre ++ .int d :: rest, past⟩) id (fun i _ => rfl)
  rw [show (6 : Nat) = 5 + 1 from rfl, this, List.map_id]

theorem parents_para {pre : List W} (hp : pre.length = 5) (past : Nat → W) (d : BitVec 64) (w : W) (rest : List W)
    (h3 : tagOf d = 3) : parents ⟨pre ++ .int d :: w :: rest, past⟩ = clsAll rest := by
  unfold parents
  rw [show (5 : Nat) = 5 + 0 from rfl, get_at hp past (.int d :: w :: rest) 0 (.int d) rfl]
  simp only
  rw [if_neg (by omega), if_pos (by omega)]
  have hf : (fun i => decide ((if tagOf d = 3 then 7 else 6) ≤ i) && !(tagOf d == 7 && i == 7))
      = fun i => decide (7 ≤ i) := by
    funext i; simp [h3]
  rw [hf, range_filter, show (pre ++ W.int d :: w :: rest).length - 7 = rest.length by simp [hp]; omega]
  have := map_fields hp past (.int d :: w :: rest) 2 rest rfl
    (HRec.get ⟨pre ++ .int d :: w :: rest, past⟩) id (fun i _ => rfl)
  rw [show (7 : Nat) = 5 + 2 from rfl, this, List.map_id]

theorem parents_propinst {pre : List W} (hp : pre.length = 5) (past : Nat → W) (d : BitVec 64) (c t : W) (rest : List W)
    (h7 : tagOf d = 7) : parents ⟨pre ++ .int d :: c :: t :: rest, past⟩ = clsAll (c :: rest) := by
  unfold parents
  rw [show (5 : Nat) = 5 + 0 from rfl, get_at hp past (.int d :: c :: t :: rest) 0 (.int d) rfl]
  simp only
  rw [if_neg (by omega), if_pos (by omega)]
  have hf : (fun i => decide ((if tagOf d = 3 then 7 else 6) ≤ i) && !(tagOf d == 7 && i == 7))
      = fun i => (fun i => !(i == 7)) i && (fun i => decide (6 ≤ i)) i := by
    funext i; simp [h7, Bool.and_comm]
  rw [hf, ← List.filter_filter, range_filter,
    show (pre ++ W.int d :: c :: t :: rest).length - 6 = rest.length + 2 by simp [hp]; omega,
    List.range'_succ, List.range'_succ]
  have hr : (List.range' (6 + 1 + 1) rest.length).filter (fun i => !(i == 7)) = List.range' (5 + 3) rest.length := by
    rw [List.filter_eq_self]
    intro i hi
    have := (List.mem_range'_1.1 hi).1
    have h : i ≠ 7 := by omega
    simp [h]
  have := map_fields hp past (.int d :: c :: t :: rest) 3 rest rfl
    (HRec.get ⟨pre ++ .int d :: c :: t :: rest, past⟩) id (fun i _ => rfl)
  rw [List.filter_cons_of_pos (by decide), List.filter_cons_of_neg (by decide), hr, List.map_cons, this,
    List.map_id, show (6 : Nat) = 5 + 1 from rfl, get_at hp past _ 1 c rfl]

theorem small64 {n : Nat} (h : n < 2 ^ 64) : (BitVec.ofNat 64 n).toNat = n := by
  rw [BitVec.toNat_ofNat, Nat.mod_eq_of_lt h]

theorem len_two {α : Type} {l : List α} (h : 1 ≤ l.length ∧ l.length ≤ 2) :
    (∃ a, l = [a]) ∨ ∃ a b, l = [a, b] := by
  rcases l with _ | ⟨a, _ | ⟨b, _ | ⟨c, l⟩⟩⟩
  · simp at h
  · exact .inl ⟨a, rfl⟩
  · exact .inr ⟨a, b, rfl⟩
  · simp at h

theorem filter_all {n b m : Nat} (h : b + n ≤ m) : (List.range n).filter (fun i => decide (b + i < m)) = List.range n := by
  rw [List.filter_eq_self]
  intro i hi
  have := List.mem_range.1 hi
  simp; omega

theorem parents_arith {pre : List W} (hp : pre.length = 5) (past : Nat → W) (c : Nat) (subst : List (Nat × W))
    (cuts : List Nat) (hs : 1 ≤ subst.length ∧ subst.length ≤ 2) (hc : cuts.length ≤ 98) :
    parents ⟨mkArithinst pre c subst cuts, past⟩ = some (c :: cuts) := by
  obtain ⟨d, hd, ht, -⟩ := head_parts 10 0 0 false (by omega)
  have hk := small64 (n := cuts.length) (by omega)
  unfold mkArithinst
  rw [hd]
  unfold parents
  rcases len_two hs with ⟨a, rfl⟩ | ⟨a, b, rfl⟩
  · simp only [List.flatMap_cons, List.flatMap_nil, List.append_nil, List.cons_append, List.nil_append,
      List.length_cons, List.length_nil]
    generalize hr : (W.int d :: W.cls c :: W.int (BitVec.ofNat 64 (0 + 1)) :: W.int (BitVec.ofNat 64 a.1) :: a.2 ::
      W.int (BitVec.ofNat 64 cuts.length) :: cuts.map W.cls) = rest
    have hl : rest.length = cuts.length + 6 := by subst hr; simp
    have g0 := get_at hp past rest 0 (.int d) (by subst hr; rfl)
    have g1 := get_at hp past rest 1 (.cls c) (by subst hr; rfl)
    have g2 := get_at hp past rest 2 (.int 1#64) (by subst hr; rfl)
    have g5 := get_at hp past rest 5 (.int (BitVec.ofNat 64 cuts.length)) (by subst hr; rfl)
    have n1 : (1#64 : BitVec 64).toNat = 1 := rfl
    rw [show (5 : Nat) = 5 + 0 from rfl, g0]
    simp only [ht, if_true]
    rw [show (6 : Nat) = 5 + 1 from rfl, g1, show (7 : Nat) = 5 + 2 from rfl, g2]
    simp only [clsOf, n1]
    rw [if_neg (by omega), show 8 + 2 * 1 = 5 + 5 from rfl, g5]
    simp only [hk]
    rw [filter_all (by simp [hp, hl]; omega)]
    have := map_fields_range hp past rest 6 (cuts.map .cls) (by subst hr; rfl)
      (HRec.get ⟨pre ++ rest, past⟩) id (fun i _ => rfl)
    rw [List.length_map, List.map_id] at this
    rw [show 5 + 5 + 1 = 5 + 6 from rfl, this, clsAll_map]
  · simp only [List.flatMap_cons, List.flatMap_nil, List.append_nil, List.cons_append, List.nil_append,
      List.length_cons, List.length_nil]
    generalize hr : (W.int d :: W.cls c :: W.int (BitVec.ofNat 64 (0 + 1 + 1)) :: W.int (BitVec.ofNat 64 a.1) :: a.2 ::
      W.int (BitVec.ofNat 64 b.1) :: b.2 :: W.int (BitVec.ofNat 64 cuts.length) :: cuts.map W.cls) = rest
    have hl : rest.length = cuts.length + 8 := by subst hr; simp
    have g0 := get_at hp past rest 0 (.int d) (by subst hr; rfl)
    have g1 := get_at hp past rest 1 (.cls c) (by subst hr; rfl)
    have g2 := get_at hp past rest 2 (.int 2#64) (by subst hr; rfl)
    have g5 := get_at hp past rest 7 (.int (BitVec.ofNat 64 cuts.length)) (by subst hr; rfl)
    have n1 : (2#64 : BitVec 64).toNat = 2 := rfl
    rw [show (5 : Nat) = 5 + 0 from rfl, g0]
    simp only [ht, if_true]
    rw [show (6 : Nat) = 5 + 1 from rfl, g1, show (7 : Nat) = 5 + 2 from rfl, g2]
    simp only [clsOf, n1]
    rw [if_neg (by omega), show 8 + 2 * 2 = 5 + 7 from rfl, g5]
    simp only [hk]
    rw [filter_all (by simp [hp, hl]; omega)]
    have := map_fields_range hp past rest 8 (cuts.map .cls) (by subst hr; rfl)
      (HRec.get ⟨pre ++ rest, past⟩) id (fun i _ => rfl)
    rw [List.length_map, List.map_id] at this
    rw [show 5 + 7 + 1 = 5 + 8 from rfl, this, clsAll_map]

/-- the parents followed are the premises of the step -/
theorem parents_made {h : HRec} {st : Step} (hm : Made h st) (hf : st.Fits) (hq : QuietPast h st) :
    parents h = some st.premises := by
  obtain ⟨pre, hp, he⟩ := hm
  obtain ⟨fields, past⟩ := h
  simp only at he
  subst he
  cases st with
  | input =>
    have g : (HRec.mk pre past).get 5 = past 0 := by
      unfold HRec.get
      simp [hp]
    have hq' := hq rfl
    simp only at hq'
    unfold parents
    simp only [Step.build, g]
    cases hw : past 0 with
    | int d =>
      simp only
      rw [if_neg (hq' d hw)]
      split
      · have : (List.range pre.length).filter
            (fun i => decide ((if tagOf d = 3 then 7 else 6) ≤ i) && !(tagOf d == 7 && i == 7)) = [] := by
          rw [List.filter_eq_nil_iff]
          intro i hi
          have := List.mem_range.1 hi
          have h6 : ¬ (if tagOf d = 3 then 7 else 6) ≤ i := by split <;> omega
          simp [h6]
        rw [this]; rfl
      · rfl
    | _ => rfl
  | resolve c1 p1 c2 p2 cuts =>
    obtain ⟨-, -, hc⟩ := hf
    obtain ⟨d, hd, ht, -⟩ := head_parts 1 p1 p2 false (by omega)
    simp only [Step.build, mkTwo, cutVec_eq hc, hd]
    rw [parents_plain hp past d _ (by omega) (by omega) (by omega) (by omega)]
    exact clsAll_map (c1 :: c2 :: cuts)
  | instgen c1 p1 c2 p2 cuts =>
    obtain ⟨-, -, hc⟩ := hf
    obtain ⟨d, hd, ht, -⟩ := head_parts 8 p1 p2 false (by omega)
    simp only [Step.build, mkTwo, cutVec_eq hc, hd]
    rw [parents_plain hp past d _ (by omega) (by omega) (by omega) (by omega)]
    exact clsAll_map (c1 :: c2 :: cuts)
  | propagate c1 p1 c2 p2 =>
    obtain ⟨d, hd, ht, -⟩ := head_parts 6 p1 p2 false (by omega)
    simp only [Step.build, mkTwo, hd]
    rw [parents_plain hp past d _ (by omega) (by omega) (by omega) (by omega)]
    exact clsAll_map [c1, c2]
  | factor c p1 p2 cuts =>
    obtain ⟨-, -, hc⟩ := hf
    obtain ⟨d, hd, ht, -⟩ := head_parts 2 p1 p2 false (by omega)
    simp only [Step.build, mkFactor, cutVec_eq hc, hd]
    rw [parents_plain hp past d _ (by omega) (by omega) (by omega) (by omega)]
    exact clsAll_map (c :: cuts)
  | reflex c p1 cuts =>
    obtain ⟨-, hc⟩ := hf
    obtain ⟨d, hd, ht, -⟩ := head_parts 4 p1 0 false (by omega)
    simp only [Step.build, mkFactor, cutVec_eq hc, hd]
    rw [parents_plain hp past d _ (by omega) (by omega) (by omega) (by omega)]
    exact clsAll_map (c :: cuts)
  | para given eq pe left into pi path cuts =>
    obtain ⟨-, -, hc, -⟩ := hf
    simp only [Step.build, paraRecord, mkPara, cutVec_eq hc]
    cases given
    · obtain ⟨d, hd, ht, -⟩ := head_parts 3 pi pe left (by omega)
      simp only [hd, Bool.false_eq_true, if_false]
      rw [parents_para hp past d _ _ ht]
      exact clsAll_map (eq :: into :: cuts)
    · obtain ⟨d, hd, ht, -⟩ := head_parts 3 pe pi left (by omega)
      simp only [hd, if_true]
      rw [parents_para hp past d _ _ ht]
      exact clsAll_map (eq :: into :: cuts)
  | simplify c cuts rews =>
    obtain ⟨d, hd, ht, -⟩ := head_parts 5 0 0 false (by omega)
    simp only [Step.build, mkSimplify, cutVec_eq hf, hd]
    rw [parents_plain hp past d _ (by omega) (by omega) (by omega) (by omega), ← List.map_append]
    exact clsAll_map (c :: (cuts ++ rews))
  | propinst c term cuts =>
    obtain ⟨d, hd, ht, -⟩ := head_parts 7 0 0 false (by omega)
    simp only [Step.build, mkPropinst, cutVec_eq hf, hd]
    rw [parents_propinst hp past d _ _ _ ht]
    exact clsAll_map (c :: cuts)
  | extprop =>
    obtain ⟨d, hd, ht, -⟩ := head_parts 9 0 0 false (by omega)
    simp only [Step.build, mkExtprop, hd]
    unfold parents
    rw [show (5 : Nat) = 5 + 0 from rfl, get_at hp past [.int d] 0 (.int d) rfl]
    simp only
    rw [if_neg (by omega), if_neg (by omega)]
    rfl
  | arithinst c subst cuts =>
    obtain ⟨hs, hc, -⟩ := hf
    simp only [Step.build, cutVec_eq hc]
    exact parents_arith hp past c subst cuts hs hc

/-! ### lines of the records made -/

theorem built_length {pre : List W} (hp : pre.length = 5) (d : BitVec 64) (rest : List W) :
    (pre ++ W.int d :: rest).length ≠ 5 := by simp [hp]

theorem print_plain {pre : List W} (hp : pre.length = 5) (past : Nat → W) (assoc : List (Nat × Nat)) (d : BitVec 64)
    (rest : List W) (cl : Option Nat) (num : Nat) (h10 : tagOf d ≠ 10) (h9 : tagOf d ≠ 9) (h3 : tagOf d ≠ 3) :
    printOne assoc ⟨pre ++ .int d :: rest, past⟩ cl num = ⟨num, ruleOf (tagOf d),
      (List.range' 6 rest.length).map (item ⟨pre ++ .int d :: rest, past⟩ assoc d), cl⟩ := by
  unfold printOne
  rw [if_neg (built_length hp d rest), show (5 : Nat) = 5 + 0 from rfl,
    get_at hp past (.int d :: rest) 0 (.int d) rfl]
  simp only
  rw [if_neg h10, if_neg h9]
  simp only [if_neg h3]
  rw [range_filter, show (pre ++ W.int d :: rest).length - 6 = rest.length by simp [hp]; omega]

/-- the premises from the third on -/
theorem tail_items {pre : List W} (hp : pre.length = 5) (past : Nat → W) (assoc : List (Nat × Nat)) (d : BitVec 64)
    (rest : List W) (k : Nat) (cs : List Nat) (hk : rest.drop k = cs.map .cls)
    (hi : ∀ i, i ≥ 5 + k → item ⟨pre ++ rest, past⟩ assoc d i
      = .ref (wordNum assoc ((HRec.mk (pre ++ rest) past).get i)) [] none) :
    (List.range' (5 + k) cs.length).map (item ⟨pre ++ rest, past⟩ assoc d) = cs.map (bare (numOf assoc)) := by
  have := map_fields hp past rest k (cs.map .cls) hk (item ⟨pre ++ rest, past⟩ assoc d)
    (fun w => .ref (wordNum assoc w) [] none) hi
  rw [List.length_map, List.map_map] at this
  rw [this]
  rfl

theorem print_two {pre : List W} (hp : pre.length = 5) (past : Nat → W) (assoc : List (Nat × Nat)) (tag c1 p1 c2 p2 : Nat)
    (cuts : List Nat) (cl : Option Nat) (num : Nat) (ht : tag = 1 ∨ tag = 6 ∨ tag = 8) (h1 : p1 < 16) (h2 : p2 < 16) :
    printOne assoc ⟨mkTwo tag pre c1 p1 c2 p2 cuts, past⟩ cl num = ⟨num, ruleOf tag,
      lit (numOf assoc) c1 p1 :: lit (numOf assoc) c2 p2 :: cuts.map (bare (numOf assoc)), cl⟩ := by
  obtain ⟨d, hd, hdt, hd1, hd2, -⟩ := head_parts tag p1 p2 false (by omega)
  rw [clamp_id (by omega), Nat.mod_eq_of_lt h1] at hd1
  rw [clamp_id (by omega), Nat.mod_eq_of_lt h2] at hd2
  unfold mkTwo
  rw [hd, print_plain hp past assoc d _ cl num (by omega) (by omega) (by omega), hdt]
  simp only [List.length_cons, List.length_map, List.range'_succ, List.map_cons]
  have g1 := get_at hp past (W.int d :: W.cls c1 :: W.cls c2 :: cuts.map W.cls) 1 (.cls c1) rfl
  have g2 := get_at hp past (W.int d :: W.cls c1 :: W.cls c2 :: cuts.map W.cls) 2 (.cls c2) rfl
  have ht' : tagOf d = 1 ∨ tagOf d = 6 ∨ tagOf d = 8 := by omega
  congr 1
  congr 1
  · unfold item
    simp only [ht', if_true, hd1]
    rw [show (6 : Nat) = 5 + 1 from rfl, g1]; rfl
  congr 1
  · unfold item
    simp only [ht', if_true, hd2]
    rw [if_neg (by omega), show (6 + 1 : Nat) = 5 + 2 from rfl, g2]; rfl
  · refine tail_items hp past assoc d _ 3 cuts rfl (fun i hi => ?_)
    unfold item
    simp only [ht', if_true]
    rw [if_neg (by omega), if_neg (by omega)]

theorem print_one {pre : List W} (hp : pre.length = 5) (past : Nat → W) (assoc : List (Nat × Nat)) (d : BitVec 64)
    (c : Nat) (cs : List Nat) (pos : List Nat) (cl : Option Nat) (num : Nat)
    (ht : tagOf d = 2 ∧ pos = [pos1Of d, pos2Of d] ∨ tagOf d = 4 ∧ pos = [pos1Of d] ∨ tagOf d = 5 ∧ pos = []) :
    printOne assoc ⟨pre ++ .int d :: .cls c :: cs.map .cls, past⟩ cl num = ⟨num, ruleOf (tagOf d),
      .ref (numOf assoc c) pos none :: cs.map (bare (numOf assoc)), cl⟩ := by
  rw [print_plain hp past assoc d _ cl num (by omega) (by omega) (by omega)]
  simp only [List.length_cons, List.length_map, List.range'_succ, List.map_cons]
  have g1 := get_at hp past (W.int d :: W.cls c :: cs.map W.cls) 1 (.cls c) rfl
  congr 1
  congr 1
  · unfold item
    rcases ht with ⟨h, rfl⟩ | ⟨h, rfl⟩ | ⟨h, rfl⟩ <;> simp [h] <;>
    · rw [show (6 : Nat) = 5 + 1 from rfl, g1]; rfl
  · refine tail_items hp past assoc d _ 2 cs rfl (fun i hi => ?_)
    unfold item
    have h6 : i ≠ 6 := by omega
    rcases ht with ⟨h, rfl⟩ | ⟨h, rfl⟩ | ⟨h, rfl⟩ <;> simp [h, h6]

theorem print_para {pre : List W} (hp : pre.length = 5) (past : Nat → W) (assoc : List (Nat × Nat))
    (eq pe into pi path : Nat) (left : Bool) (cuts : List Nat) (cl : Option Nat) (num : Nat)
    (h1 : pe < 16) (h2 : pi < 16) :
    printOne assoc ⟨mkPara pre eq pe into pi path left cuts, past⟩ cl num = ⟨num, .para,
      (if pe = 0 ∧ left = true then .ref (numOf assoc eq) [] none else .ref (numOf assoc eq) [pe] (some left)) ::
      .ref (numOf assoc into) [pi, path % 2 ^ 16] none :: cuts.map (bare (numOf assoc)), cl⟩ := by
  obtain ⟨d, hd, hdt, hd1, hd2, he⟩ := head_parts 3 pe pi left (by omega)
  rw [clamp_id (by omega), Nat.mod_eq_of_lt h1] at hd1
  rw [clamp_id (by omega), Nat.mod_eq_of_lt h2] at hd2
  unfold mkPara
  rw [hd]
  unfold printOne
  rw [if_neg (built_length hp d _), show (5 : Nat) = 5 + 0 from rfl, get_at hp past (.int d :: _) 0 (.int d) rfl]
  simp only
  rw [if_neg (by omega), if_neg (by omega)]
  simp only [if_pos hdt]
  rw [range_filter, show (pre ++ W.int d :: W.int (BitVec.ofNat 64 path) :: W.cls eq :: W.cls into ::
    cuts.map W.cls).length - 7 = cuts.length + 2 by simp [hp]; omega, List.range'_succ, List.range'_succ,
    List.map_cons, List.map_cons]
  generalize hr : (W.int d :: W.int (BitVec.ofNat 64 path) :: W.cls eq :: W.cls into :: cuts.map W.cls) = rest
  have g1 := get_at hp past rest 1 (.int (BitVec.ofNat 64 path)) (by subst hr; rfl)
  have g2 := get_at hp past rest 2 (.cls eq) (by subst hr; rfl)
  have g3 := get_at hp past rest 3 (.cls into) (by subst hr; rfl)
  rw [show ruleOf (tagOf d) = .para by rw [hdt]; rfl]
  congr 1
  congr 1
  · unfold item
    rw [show (7 : Nat) = 5 + 2 from rfl, g2]
    simp only [hdt, hd1, he]
    cases left <;> by_cases hz : pe = 0 <;> simp [hz, wordNum, clsOf]
  congr 1
  · unfold item
    rw [show (7 + 1 : Nat) = 5 + 3 from rfl, g3, show (6 : Nat) = 5 + 1 from rfl, g1]
    simp only [hdt, hd2, intOf, BitVec.toNat_ofNat]
    have hm : path % 2 ^ 64 % 2 ^ 16 = path % 2 ^ 16 := by omega
    rw [hm]
    simp [wordNum, clsOf]
  · refine tail_items hp past assoc d rest 4 cuts (by subst hr; rfl) (fun i hi => ?_)
    unfold item
    have h7 : i ≠ 7 := by omega
    have h8 : i ≠ 8 := by omega
    simp [hdt, h7, h8]

theorem print_arith {pre : List W} (hp : pre.length = 5) (past : Nat → W) (assoc : List (Nat × Nat)) (c : Nat)
    (subst : List (Nat × W)) (cuts : List Nat) (cl : Option Nat) (num : Nat)
    (hs : 1 ≤ subst.length ∧ subst.length ≤ 2) (hc : cuts.length ≤ 98) (hv : ∀ s ∈ subst, s.1 < 2 ^ 64) :
    printOne assoc ⟨mkArithinst pre c subst cuts, past⟩ cl num = ⟨num, .arithinst,
      bare (numOf assoc) c :: (subst.map (fun s => .subst s.1 s.2) ++ cuts.map (bare (numOf assoc))), cl⟩ := by
  obtain ⟨d, hd, ht, -⟩ := head_parts 10 0 0 false (by omega)
  have hk := small64 (n := cuts.length) (by omega)
  unfold mkArithinst
  rw [hd]
  unfold printOne
  rw [if_neg (built_length hp d _)]
  rcases len_two hs with ⟨a, rfl⟩ | ⟨a, b, rfl⟩
  · have ha := small64 (hv a (by simp))
    simp only [List.flatMap_cons, List.flatMap_nil, List.append_nil, List.cons_append, List.nil_append,
      List.length_cons, List.length_nil]
    generalize hr : (W.int d :: W.cls c :: W.int (BitVec.ofNat 64 (0 + 1)) :: W.int (BitVec.ofNat 64 a.1) :: a.2 ::
      W.int (BitVec.ofNat 64 cuts.length) :: cuts.map W.cls) = rest
    have g0 := get_at hp past rest 0 (.int d) (by subst hr; rfl)
    have g1 := get_at hp past rest 1 (.cls c) (by subst hr; rfl)
    have g2 := get_at hp past rest 2 (.int 1#64) (by subst hr; rfl)
    have g3 := get_at hp past rest 3 (.int (BitVec.ofNat 64 a.1)) (by subst hr; rfl)
    have g4 := get_at hp past rest 4 a.2 (by subst hr; rfl)
    have g5 := get_at hp past rest 5 (.int (BitVec.ofNat 64 cuts.length)) (by subst hr; rfl)
    have n1 : intOf (.int 1#64) = 1 := rfl
    rw [show (5 : Nat) = 5 + 0 from rfl, g0]
    simp only [ht, if_true]
    rw [show (6 : Nat) = 5 + 1 from rfl, g1, show (7 : Nat) = 5 + 2 from rfl, g2, n1,
      show 8 + 2 * 1 = 5 + 5 from rfl, g5]
    have := map_fields_range hp past rest 6 (cuts.map .cls) (by subst hr; rfl)
      (fun i => Item.ref (wordNum assoc ((HRec.mk (pre ++ rest) past).get i)) [] none)
      (fun w => .ref (wordNum assoc w) [] none) (fun i _ => rfl)
    rw [List.length_map, List.map_map] at this
    simp only [intOf, hk]
    rw [show 5 + 5 + 1 = 5 + 6 from rfl, this]
    simp only [show List.range 1 = [0] from rfl, List.map_cons, List.map_nil]
    rw [show 8 + 2 * 0 = 5 + 3 from rfl, g3, show 5 + 3 + 1 = 5 + 4 from rfl, g4]
    simp only [ha]
    rfl
  · have ha := small64 (hv a (by simp))
    have hb := small64 (hv b (by simp))
    simp only [List.flatMap_cons, List.flatMap_nil, List.append_nil, List.cons_append, List.nil_append,
      List.length_cons, List.length_nil]
    generalize hr : (W.int d :: W.cls c :: W.int (BitVec.ofNat 64 (0 + 1 + 1)) :: W.int (BitVec.ofNat 64 a.1) :: a.2 ::
      W.int (BitVec.ofNat 64 b.1) :: b.2 :: W.int (BitVec.ofNat 64 cuts.length) :: cuts.map W.cls) = rest
    have g0 := get_at hp past rest 0 (.int d) (by subst hr; rfl)
    have g1 := get_at hp past rest 1 (.cls c) (by subst hr; rfl)
    have g2 := get_at hp past rest 2 (.int 2#64) (by subst hr; rfl)
    have g3 := get_at hp past rest 3 (.int (BitVec.ofNat 64 a.1)) (by subst hr; rfl)
    have g4 := get_at hp past rest 4 a.2 (by subst hr; rfl)
    have g5 := get_at hp past rest 5 (.int (BitVec.ofNat 64 b.1)) (by subst hr; rfl)
    have g6 := get_at hp past rest 6 b.2 (by subst hr; rfl)
    have g7 := get_at hp past rest 7 (.int (BitVec.ofNat 64 cuts.length)) (by subst hr; rfl)
    have n1 : intOf (.int 2#64) = 2 := rfl
    rw [show (5 : Nat) = 5 + 0 from rfl, g0]
    simp only [ht, if_true]
    rw [show (6 : Nat) = 5 + 1 from rfl, g1, show (7 : Nat) = 5 + 2 from rfl, g2, n1,
      show 8 + 2 * 2 = 5 + 7 from rfl, g7]
    have := map_fields_range hp past rest 8 (cuts.map .cls) (by subst hr; rfl)
      (fun i => Item.ref (wordNum assoc ((HRec.mk (pre ++ rest) past).get i)) [] none)
      (fun w => .ref (wordNum assoc w) [] none) (fun i _ => rfl)
    rw [List.length_map, List.map_map] at this
    simp only [intOf, hk]
    rw [show 5 + 7 + 1 = 5 + 8 from rfl, this]
    simp only [show List.range 2 = [0, 1] from rfl, List.map_cons, List.map_nil]
    rw [show 8 + 2 * 0 = 5 + 3 from rfl, g3, show 5 + 3 + 1 = 5 + 4 from rfl, g4,
      show 8 + 2 * 1 = 5 + 5 from rfl, g5, show 5 + 5 + 1 = 5 + 6 from rfl, g6]
    simp only [ha, hb]
    rfl

/-- the line of a step -/
theorem print_made {h : HRec} {st : Step} (hm : Made h st) (hf : st.Fits) (assoc : List (Nat × Nat))
    (cl : Option Nat) (num : Nat) :
    printOne assoc h cl num = ⟨num, st.rule, st.items (numOf assoc), st.shows cl⟩ := by
  obtain ⟨pre, hp, he⟩ := hm
  obtain ⟨fields, past⟩ := h
  simp only at he
  subst he
  cases st with
  | input =>
    unfold printOne
    exact if_pos hp
  | resolve c1 p1 c2 p2 cuts =>
    obtain ⟨h1, h2, hc⟩ := hf
    simp only [Step.build, cutVec_eq hc]
    exact print_two hp past assoc 1 c1 p1 c2 p2 cuts cl num (by omega) h1 h2
  | instgen c1 p1 c2 p2 cuts =>
    obtain ⟨h1, h2, hc⟩ := hf
    simp only [Step.build, cutVec_eq hc]
    exact print_two hp past assoc 8 c1 p1 c2 p2 cuts cl num (by omega) h1 h2
  | propagate c1 p1 c2 p2 =>
    obtain ⟨h1, h2⟩ := hf
    exact print_two hp past assoc 6 c1 p1 c2 p2 [] cl num (by omega) h1 h2
  | factor c p1 p2 cuts =>
    obtain ⟨h1, h2, hc⟩ := hf
    obtain ⟨d, hd, ht, hd1, hd2, -⟩ := head_parts 2 p1 p2 false (by omega)
    rw [clamp_id (by omega), Nat.mod_eq_of_lt h1] at hd1
    rw [clamp_id (by omega), Nat.mod_eq_of_lt h2] at hd2
    simp only [Step.build, mkFactor, cutVec_eq hc, hd]
    rw [print_one hp past assoc d c cuts [p1, p2] cl num (by simp [ht, hd1, hd2]), ht]; rfl
  | reflex c p1 cuts =>
    obtain ⟨h1, hc⟩ := hf
    obtain ⟨d, hd, ht, hd1, -⟩ := head_parts 4 p1 0 false (by omega)
    rw [clamp_id (by omega), Nat.mod_eq_of_lt h1] at hd1
    simp only [Step.build, mkFactor, cutVec_eq hc, hd]
    rw [print_one hp past assoc d c cuts [p1] cl num (by simp [ht, hd1]), ht]; rfl
  | para given eq pe left into pi path cuts =>
    obtain ⟨h1, h2, hc, hg⟩ := hf
    simp only [Step.build, paraRecord, cutVec_eq hc]
    rcases hg with rfl | rfl
    · rw [if_pos rfl]
      exact print_para hp past assoc eq pe into pi path left cuts cl num h1 h2
    · rw [ite_self]
      exact print_para hp past assoc eq pe into pe path left cuts cl num h1 h1
  | simplify c cuts rews =>
    obtain ⟨d, hd, ht, -⟩ := head_parts 5 0 0 false (by omega)
    simp only [Step.build, mkSimplify, cutVec_eq hf, hd]
    rw [← List.map_append, print_one hp past assoc d c (cuts ++ rews) [] cl num (by simp [ht]), ht, List.map_append]; rfl
  | propinst c term cuts =>
    obtain ⟨d, hd, ht, -⟩ := head_parts 7 0 0 false (by omega)
    simp only [Step.build, mkPropinst, cutVec_eq hf, hd]
    rw [print_plain hp past assoc d _ cl num (by omega) (by omega) (by omega), ht]
    simp only [List.length_cons, List.length_map, List.range'_succ, List.map_cons]
    have g1 := get_at hp past (W.int d :: W.cls c :: term :: cuts.map W.cls) 1 (.cls c) rfl
    have g2 := get_at hp past (W.int d :: W.cls c :: term :: cuts.map W.cls) 2 term rfl
    have e3 : (List.range' (6 + 1 + 1) cuts.length).map
        (item ⟨pre ++ W.int d :: W.cls c :: term :: cuts.map W.cls, past⟩ assoc d) = cuts.map (bare (numOf assoc)) := by
      refine tail_items hp past assoc d _ 3 cuts rfl (fun i hi => ?_)
      unfold item
      have h7 : i ≠ 7 := by omega
      simp [ht, h7]
    rw [e3]
    have e1 : item ⟨pre ++ W.int d :: W.cls c :: term :: cuts.map W.cls, past⟩ assoc d 6 = bare (numOf assoc) c := by
      unfold item
      rw [show (6 : Nat) = 5 + 1 from rfl, g1]
      simp [ht, bare, wordNum, clsOf]
    have e2 : item ⟨pre ++ W.int d :: W.cls c :: term :: cuts.map W.cls, past⟩ assoc d (6 + 1) = .term term := by
      unfold item
      rw [show (6 + 1 : Nat) = 5 + 2 from rfl, g2]
      simp [ht]
    rw [e1, e2]; rfl
  | extprop =>
    obtain ⟨d, hd, ht, -⟩ := head_parts 9 0 0 false (by omega)
    simp only [Step.build, mkExtprop, hd]
    unfold printOne
    rw [if_neg (built_length hp d _), show (5 : Nat) = 5 + 0 from rfl, get_at hp past [.int d] 0 (.int d) rfl]
    simp only
    rw [if_neg (by omega), if_pos ht]; rfl
  | arithinst c subst cuts =>
    obtain ⟨hs, hc, hv⟩ := hf
    simp only [Step.build, cutVec_eq hc]
    exact print_arith hp past assoc c subst cuts cl num hs hc hv

/-! ### numbering -/

theorem lookup_zipIdx (cs : List Nat) (k c : Nat) :
    (cs.zipIdx k).lookup c = if c ∈ cs then some (cs.idxOf c + k) else none := by
  induction cs generalizing k with
  | nil => rfl
  | cons a cs ih =>
    rw [List.zipIdx_cons, List.lookup_cons]
    by_cases h : c = a
    · subst h; simp
    · have h' : (c == a) = false := by simp [h]
      have h'' : (a == c) = false := by simp [Ne.symm h]
      simp only [h', ih, List.mem_cons, h, false_or, List.idxOf_cons, h'', cond_false]
      split <;> simp; omega

theorem numOf_zipIdx {cs : List Nat} {c : Nat} (h : c ∈ cs) : numOf (cs.zipIdx 1) c = cs.idxOf c + 1 := by
  unfold numOf; rw [lookup_zipIdx, if_pos h]; rfl

theorem lookup_mem {l : List (Nat × Nat)} {c : Nat} : (∃ v, l.lookup c = some v) ↔ c ∈ l.map (·.1) := by
  induction l with
  | nil => simp
  | cons a l ih =>
    rw [List.lookup_cons]
    by_cases h : c = a.1
    · subst h; simp
    · have h' : (c == a.1) = false := by simp [h]
      rw [h']
      simp only [List.map_cons, List.mem_cons, h, false_or]
      exact ih

/-- premises come before -/
def Before (step : Nat → Step) (cs : List Nat) : Prop :=
  ∀ l c r, cs = l ++ c :: r → ∀ p ∈ (step c).premises, p ∈ l

/-- the clauses numbered so far are `cs`, in this order -/
structure Num (step : Nat → Step) (fin : Step) (s : FS) (cs : List Nat) : Prop where
  assoc : s.assoc.reverse = cs.zipIdx 1
  clnr : s.clnr = cs.length + 1
  nodup : cs.Nodup
  before : Before step cs
  used : ∀ c ∈ cs, Used step fin c

theorem Num.keys {step fin s cs} (h : Num step fin s cs) (c : Nat) : (∃ v, s.assoc.lookup c = some v) ↔ c ∈ cs := by
  rw [lookup_mem]
  have : (s.assoc.reverse).map (·.1) = cs := by
    rw [h.assoc]; exact List.zipIdx_map_fst _ _
  rw [← this]
  simp

theorem Num.add {step fin s cs} (h : Num step fin s cs) {c : Nat} (hp : ∀ p ∈ (step c).premises, p ∈ cs)
    (hu : Used step fin c) : ∃ r, Num step fin (addcl c s) (cs ++ r) ∧ c ∈ cs ++ r := by
  unfold addcl
  cases hl : s.assoc.lookup c with
  | some v => exact ⟨[], by simpa using h, by simpa using (h.keys c).1 ⟨v, hl⟩⟩
  | none =>
    have hn : c ∉ cs := by
      intro hc
      obtain ⟨v, hv⟩ := (h.keys c).2 hc
      rw [hl] at hv; cases hv
    refine ⟨[c], ⟨?_, ?_, ?_, ?_, ?_⟩, by simp⟩
    · simp only [List.reverse_cons, h.assoc, h.clnr, List.zipIdx_append]
      simp [Nat.add_comm]
    · simp [h.clnr]
    · rw [List.nodup_append]
      exact ⟨h.nodup, by simp, by intro a ha b hb; simp at hb; subst hb; intro e; subst e; exact hn ha⟩
    · intro l x r e p hpx
      rcases List.eq_nil_or_concat r with rfl | ⟨r', y, rfl⟩
      · obtain ⟨e1, e2⟩ := List.append_inj' e (by simp)
        simp only [List.cons.injEq, and_true] at e2
        subst e1 e2
        exact hp p hpx
      · have e' : cs ++ [c] = (l ++ x :: r') ++ [y] := by rw [e]; simp
        obtain ⟨e1, -⟩ := List.append_inj' e' (by simp)
        exact h.before l x r' e1 p hpx
    · intro x hx
      rcases List.mem_append.1 hx with hx | hx
      · exact h.used x hx
      · simp at hx; subst hx; exact hu

/-- the premises of a step are all numbered afterwards -/
theorem flat_num {S : Nat → HRec} {step : Nat → Step} {fin : Step} (hS : ∀ c, parents (S c) = some (step c).premises)
    (hord : ∀ c, ∀ p ∈ (step c).premises, p < c) (n : Nat) :
    ∀ (h : HRec) (ps : List Nat), parents h = some ps → 0 < n → (∀ p ∈ ps, p + 1 < n) → (∀ p ∈ ps, Used step fin p) →
      ∀ s cs, Num step fin s cs → ∃ s' r, flat S n h s = .ok s' ∧ Num step fin s' (cs ++ r) ∧ ∀ p ∈ ps, p ∈ cs ++ r := by
  induction n with
  | zero => intro _ _ _ h; omega
  | succ n ih =>
    intro h ps hps _ hlt hu s cs hn
    simp only [flat, hps]
    clear hps
    induction ps generalizing s cs with
    | nil => exact ⟨s, [], rfl, by simpa using hn, by simp⟩
    | cons p ps ihp =>
      have hlt' : ∀ q ∈ ps, q + 1 < n + 1 := fun q hq => hlt q (List.mem_cons_of_mem _ hq)
      have hu' : ∀ q ∈ ps, Used step fin q := fun q hq => hu q (List.mem_cons_of_mem _ hq)
      have hp1 := hlt p List.mem_cons_self
      have hpu := hu p List.mem_cons_self
      simp only [visitAll]
      cases hl : s.assoc.lookup p with
      | some v =>
        have hpc := (hn.keys p).1 ⟨v, hl⟩
        obtain ⟨s', r, h1, h2, h3⟩ := ihp hlt' hu' s cs hn
        refine ⟨s', r, h1, h2, ?_⟩
        intro q hq
        rcases List.mem_cons.1 hq with rfl | hq
        · exact List.mem_append_left _ hpc
        · exact h3 q hq
      | none =>
        obtain ⟨s1, r1, h1, h2, h3⟩ := ih (S p) _ (hS p) (by omega)
          (fun q hq => by have := hord p q hq; omega) (fun q hq => .back hpu hq) s cs hn
        simp only [h1]
        obtain ⟨r2, h4, h5⟩ := h2.add h3 hpu
        obtain ⟨s', r3, h6, h7, h8⟩ := ihp hlt' hu' _ _ h4
        refine ⟨s', r1 ++ r2 ++ r3, h6, by simpa [List.append_assoc] using h7, ?_⟩
        intro q hq
        rcases List.mem_cons.1 hq with rfl | hq
        · have := List.mem_append_left r3 h5
          simpa [List.append_assoc] using this
        · simpa [List.append_assoc] using h8 q hq

end Gkc.Hist
