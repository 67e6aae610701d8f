import Verif.ParseSpec
/-
The parser on the tokens of terms and formulas.
-/
namespace Gkc.Ps
open Gkc.Conv (Lst)
open Gkc.Conv.Spec (T F Op sym word)
open Gkc.Ps.Spec

/-- some rounds of the loop -/
inductive Steps : Cfg → Cfg → Prop
  | refl (c) : Steps c c
  | cons {c c' c''} (h : step c = .inl c') (hs : Steps c' c'') : Steps c c''

theorem Steps.trans {a b c : Cfg} (h : Steps a b) (k : Steps b c) : Steps a c := by
  induction h with
  | refl => exact k
  | cons h _ ih => exact .cons h (ih k)

theorem Steps.run {c c' : Cfg} (h : Steps c c') {n : Nat} {f : Outcome} (hr : run n c' = some f) : ∃ m, run m c = some f := by
  induction h with
  | refl => exact ⟨n, hr⟩
  | cons h _ ih => obtain ⟨m, hm⟩ := ih hr; exact ⟨m + 1, by simp [Ps.run, h, hm]⟩

/-- from every parser with these stacks and tokens to one with those -/
def Goes (S : List (Nat × V)) (ts : List Tok) (S' : List (Nat × V)) (ts' : List Tok) : Prop :=
  ∀ ab sz res, S.length < sz → sz ≤ 10000 → ∃ ab' sz', S'.length < sz' ∧ sz' ≤ 10000 ∧ Steps ⟨S, ab, sz, ts, res⟩ ⟨S', ab', sz', ts', res⟩

theorem Goes.trans {S ts S' ts' S'' ts''} (h : Goes S ts S' ts') (k : Goes S' ts' S'' ts'') : Goes S ts S'' ts'' := by
  intro ab sz res h1 h2
  obtain ⟨ab', sz', h3, h4, h5⟩ := h ab sz res h1 h2
  obtain ⟨ab'', sz'', h6, h7, h8⟩ := k ab' sz' res h3 h4
  exact ⟨ab'', sz'', h6, h7, h5.trans h8⟩

theorem push_ok (c : Cfg) (s : Nat) (v : V) (h : c.stk.length < c.size) (h2 : c.size ≤ 10000) (hl : c.stk.length + 1 < 10000) :
    ∃ ab' sz', c.stk.length + 1 < sz' ∧ sz' ≤ 10000 ∧ push c s v = .inl ⟨(s, v) :: c.stk, ab', sz', c.toks, c.result⟩ := by
  unfold push
  by_cases hc : c.size ≤ c.stk.length + 1
  · refine ⟨[], min (2 * c.size) 10000, by omega, by omega, ?_⟩
    have h1 : ¬ 10000 ≤ c.size := by omega
    have h3 : ¬ min (2 * c.size) 10000 ≤ c.stk.length + 1 := by omega
    simp only [List.length_cons, hc, if_true, h1, if_false, h3]
  · refine ⟨c.above.tail, c.size, by omega, h2, ?_⟩
    simp only [List.length_cons, hc, if_false]

theorem shift {s : Nat} {v : V} {S : List (Nat × V)} {k : Nat} {x : String} {ts : List Tok} {n : Nat}
    (h : action s k = .shift n) (hs : s ≠ 46) (hl : S.length + 2 < 10000) :
    Goes ((s, v) :: S) (⟨k, x⟩ :: ts) ((n, .txt x) :: (s, v) :: S) ts := by
  intro ab sz res h1 h2
  obtain ⟨ab', sz', h3, h4, h5⟩ := push_ok ⟨(s, v) :: S, ab, sz, ts, res⟩ n (.txt x) h1 h2 (by simp; omega)
  refine ⟨ab', sz', h3, h4, .cons ?_ (.refl _)⟩
  simp [step, hs, la, h, h5]

theorem red {r s : Nat} {v : V} {P : List (Nat × V)} {s0 : Nat} {v0 : V} {S : List (Nat × V)} {ts : List Tok} {w : V} {g : Nat}
    (h : action s (la ts) = .reduce r) (hs : s ≠ 46) (h3 : r ≠ 3) (hlen : (ent yyr2 r).toNat = P.length + 1)
    (hr : ∀ ab, rule r ab ((((s, v) :: P).map Prod.snd).reverse) = some w) (hg : goto' r s0 = g) :
    Goes ((s, v) :: P ++ (s0, v0) :: S) ts ((g, w) :: (s0, v0) :: S) ts := by
  intro ab sz res h1 h2
  have hlen' : S.length + 1 + 1 < sz := by simp at h1; omega
  obtain ⟨ab', sz', h5, h6, h7⟩ := push_ok ⟨(s0, v0) :: S, (((s, v) :: P).map Prod.snd).reverse ++ ab, sz, ts, res⟩ g w (by simp; omega) h2
    (by simp; omega)
  refine ⟨ab', sz', h5, h6, .cons ?_ (.refl _)⟩
  have ht : (((s, v) :: P ++ (s0, v0) :: S).take (P.length + 1)) = (s, v) :: P := by simp
  have hd : (((s, v) :: P ++ (s0, v0) :: S).drop (P.length + 1)) = (s0, v0) :: S := by simp
  simp only [List.cons_append] at ht hd ⊢
  simp only [step, hs, if_false, h, hlen, ht, hd, hr, h3, hg, h7]

/-- the states in which a term or a formula may begin -/
def starts : List Nat := [0, 17, 18, 19, 20, 23, 31, 32, 33, 34, 49, 50, 51, 52, 53, 54, 55, 56, 57, 58, 59, 60, 61, 62, 63, 68, 71, 97, 98]

/-- the symbols that may follow a term -/
def followT : List Nat := [16, 17, 18, 20, 21, 22, 23, 24, 27, 28, 31, 33, 35, 36, 37, 39, 40]

/-- the symbols that may follow a formula -/
def followF : List Nat := [18, 20, 21, 22, 23, 24, 27, 28, 33, 35, 39, 40]

theorem always {s r : Nat} (h : ent yypact s = -33) (hd : dflt s = .reduce r) (k : Nat) : action s k = .reduce r := by
  simp [action, h, hd]

theorem starts_ne : ∀ s ∈ starts, s ≠ 46 := by decide
theorem starts_prim : ∀ s ∈ starts, action s 5 = .shift 1 ∧ action s 11 = .shift 7 ∧ action s 12 = .shift 8 ∧ action s 13 = .shift 9 := by decide
theorem starts_goto : ∀ s ∈ starts, goto' 46 s = 30 ∧ goto' 52 s = 30 ∧ goto' 53 s = 30 ∧ goto' 54 s = 30 := by decide
theorem prims : ∀ k ∈ (34 :: followT), action 1 k = .reduce 46 ∧ action 7 k = .reduce 52 ∧ action 8 k = .reduce 53 ∧ action 9 k = .reduce 54 := by decide
theorem prim_term : ∀ k ∈ followT, action 30 k = .reduce 10 := by decide
theorem goto_same : ∀ s ∈ starts, goto' 12 s = goto' 10 s ∧ goto' 13 s = goto' 10 s ∧ goto' 16 s = goto' 10 s ∧ goto' 17 s = goto' 10 s ∧
    goto' 18 s = goto' 10 s ∧ goto' 19 s = goto' 10 s ∧ goto' 20 s = goto' 10 s ∧ goto' 21 s = goto' 10 s ∧ goto' 22 s = goto' 10 s ∧
    goto' 26 s = goto' 10 s := by decide
theorem starts_paren : ∀ s ∈ starts, action s 34 = .shift 19 := by decide

theorem nameTok (q : Bool) (x : String) {s : Nat} (hs : s ∈ starts) {v : V} {S : List (Nat × V)} {ts : List Tok} (hf : la ts ∈ 34 :: followT)
    (hl : S.length + 2 < 10000) : Goes ((s, v) :: S) (name q x :: ts) ((30, .tree (sym q x)) :: (s, v) :: S) ts := by
  obtain ⟨-, h2, h3, -⟩ := starts_prim s hs
  obtain ⟨-, g2, g3, -⟩ := starts_goto s hs
  obtain ⟨-, p2, p3, -⟩ := prims _ hf
  cases q with
  | false => exact (shift (k := 11) h2 (starts_ne s hs) hl).trans (red (P := []) p2 (by decide) (by decide) (by decide) (fun _ => rfl) g2)
  | true => exact (shift (k := 12) h3 (starts_ne s hs) hl).trans (red (P := []) p3 (by decide) (by decide) (by decide) (fun _ => rfl) g3)

/-- a simple term -/
theorem to_term {s : Nat} {v w : V} {S : List (Nat × V)} {ts : List Tok} (hf : la ts ∈ followT) :
    Goes ((30, w) :: (s, v) :: S) ts ((goto' 10 s, w) :: (s, v) :: S) ts :=
  red (P := []) (prim_term _ hf) (by decide) (by decide) (by decide) (fun _ => rfl) rfl

theorem room_pos (t : T) : 1 ≤ room t := by
  cases t <;> simp [room] <;> omega

mutual
theorem term_run : ∀ (t : T), ok t → ∀ {s : Nat}, s ∈ starts → ∀ {v : V} {S : List (Nat × V)} {ts : List Tok}, la ts ∈ followT →
    S.length + 1 + room t < 10000 → Goes ((s, v) :: S) (toks t ++ ts) ((goto' 10 s, .tree t.tree) :: (s, v) :: S) ts
  | .var x, _, s, hs, v, S, ts, hf, hl => by
      simp only [toks, List.cons_append, List.nil_append, T.tree]
      exact (nameTok false x hs (List.mem_cons_of_mem _ hf) (by simp [room] at hl; omega)).trans (to_term hf)
  | .name q x, _, s, hs, v, S, ts, hf, hl => by
      simp only [toks, List.cons_append, List.nil_append, T.tree]
      exact (nameTok q x hs (List.mem_cons_of_mem _ hf) (by simp [room] at hl; omega)).trans (to_term hf)
  | .obj x, _, s, hs, v, S, ts, hf, hl => by
      simp only [toks, List.cons_append, List.nil_append, T.tree]
      exact (shift (starts_prim s hs).2.2.2 (starts_ne s hs) (by simp [room] at hl; omega)).trans
        ((red (P := []) (prims _ (List.mem_cons_of_mem _ hf)).2.2.2 (by decide) (by decide) (by decide) (fun _ => rfl) (starts_goto s hs).2.2.2).trans
          (to_term hf))
  | .num x, _, s, hs, v, S, ts, hf, hl => by
      simp only [toks, List.cons_append, List.nil_append, T.tree]
      exact (shift (starts_prim s hs).1 (starts_ne s hs) (by simp [room] at hl; omega)).trans
        ((red (P := []) (prims _ (List.mem_cons_of_mem _ hf)).1 (by decide) (by decide) (by decide) (fun _ => rfl) (starts_goto s hs).1).trans
          (to_term hf))
  | .app q f as, ho, s, hs, v, S, ts, hf, hl => by
      simp only [ok] at ho
      simp only [room] at hl
      simp only [toks, List.cons_append, List.append_assoc, List.nil_append, T.tree]
      refine (nameTok q f hs (by simp [la, lpar]) (by omega)).trans ?_
      refine (shift (k := 34) (n := 63) (by decide) (by decide) (by simp; omega)).trans ?_
      refine (terms_run as ho.2 ho.1 (s := 63) (by decide) (ts := rpar :: ts) (show 35 ∈ _ by decide) (by simp; omega)).trans ?_
      refine (shift (k := 35) (n := 96) (by decide) (by decide) (by simp; omega)).trans ?_
      exact red (P := [_, _, _]) (s0 := s) (always (by decide) (by decide) _) (by decide) (by decide) rfl (fun _ => rfl)
        (goto_same s hs).1
  | .arith op a b, ho, s, hs, v, S, ts, hf, hl => by
      simp only [ok] at ho
      simp only [room] at hl
      have hb := room_pos b
      simp only [toks, List.cons_append, List.append_assoc, List.nil_append, T.tree]
      refine (shift (k := 34) (starts_paren s hs) (starts_ne s hs) (by omega)).trans ?_
      have hop : (arTok op).kind ∈ followT := by obtain ⟨h, -⟩ := ho; simp at h; rcases h with rfl | rfl | rfl <;> decide
      refine (term_run a ho.2.1 (s := 19) (by decide) (ts := arTok op :: (toks b ++ rpar :: ts)) hop (by simp; omega)).trans ?_
      have key : ∃ s1 r, action 39 (arTok op).kind = .shift s1 ∧ s1 ∈ starts ∧ action (goto' 10 s1) 35 = .reduce r ∧ goto' 10 s1 ≠ 46 ∧ r ≠ 3 ∧
          (ent yyr2 r).toNat = 3 ∧ goto' r 19 = 39 ∧ ∀ ab x y z, rule r ab [.tree x, y, .tree z] = some (.tree (.list [word op, x, z])) := by
        obtain ⟨h, -⟩ := ho; simp at h
        rcases h with rfl | rfl | rfl
        · exact ⟨52, 18, by decide, by decide, by decide, by decide, by decide, by decide, by decide, fun _ _ _ _ => rfl⟩
        · exact ⟨51, 19, by decide, by decide, by decide, by decide, by decide, by decide, by decide, fun _ _ _ _ => rfl⟩
        · exact ⟨53, 20, by decide, by decide, by decide, by decide, by decide, by decide, by decide, fun _ _ _ _ => rfl⟩
      obtain ⟨s1, r, k1, k2, k3, k4, k5, k6, k7, k8⟩ := key
      refine (shift (k := (arTok op).kind) (x := "") (s := 39) k1 (by decide) (by simp; omega)).trans ?_
      refine (term_run b ho.2.2 k2 (ts := rpar :: ts) (show 35 ∈ _ by decide) (by simp; omega)).trans ?_
      refine (red (P := [_, _]) (s0 := 19) (ts := rpar :: ts) k3 k4 k5 k6 (fun _ => k8 _ _ _ _) k7).trans ?_
      refine (shift (k := 35) (n := 69) (by decide) (by decide) (by simp; omega)).trans ?_
      exact red (P := [_, _]) (s0 := s) (always (by decide) (by decide) _) (by decide) (by decide) rfl (fun _ => rfl)
        (goto_same s hs).2.1
theorem terms_run : ∀ (as : List T), okL as → as ≠ [] → ∀ {s : Nat}, s ∈ [33, 34, 63, 71] → ∀ {v : V} {S : List (Nat × V)} {ts : List Tok},
    la ts ∈ [35, 39] → S.length + 1 + roomL as < 10000 →
    Goes ((s, v) :: S) (toksL as ++ ts) ((goto' 27 s, .tree (.list (Conv.Spec.trees as))) :: (s, v) :: S) ts
  | [], _, hne, _, _, _, _, _, _, _ => absurd rfl hne
  | [a], ho, _, s, hs, v, S, ts, hf, hl => by
      simp only [okL] at ho
      simp only [roomL] at hl
      have hs' : s ∈ starts := by revert hs; revert s; decide
      have hg : goto' 10 s = 43 := by revert hs; revert s; decide
      have hf' : la ts ∈ followT := by generalize la ts = k at hf; revert hf; revert k; decide
      have ha : action 43 (la ts) = .reduce 27 := by generalize la ts = k at hf; revert hf; revert k; decide
      simp only [toksL, Conv.Spec.trees]
      refine (term_run a ho.1 hs' hf' hl).trans ?_
      rw [hg]
      exact red (P := []) ha (by decide) (by decide) (by decide) (fun _ => rfl) rfl
  | a :: b :: as, ho, _, s, hs, v, S, ts, hf, hl => by
      simp only [okL] at ho
      simp only [roomL] at hl
      have hs' : s ∈ starts := by revert hs; revert s; decide
      have hg : goto' 10 s = 43 := by revert hs; revert s; decide
      have hg2 : goto' 28 s = goto' 27 s := by revert hs; revert s; decide
      simp only [toksL, List.append_assoc, List.cons_append]
      refine (term_run a ho.1 hs' (ts := comma :: (toksL (b :: as) ++ ts)) (show 40 ∈ _ by decide) (by omega)).trans ?_
      rw [hg]
      refine (shift (k := 40) (n := 71) (by decide) (by decide) (by simp; omega)).trans ?_
      refine (terms_run (b :: as) (by simpa [okL] using ho.2) (by simp) (s := 71) (by decide) hf (by simp; omega)).trans ?_
      have := red (r := 28) (s := goto' 27 71) (v := .tree (.list (Conv.Spec.trees (b :: as)))) (P := [(71, .txt ""), (43, .tree a.tree)]) (s0 := s) (v0 := v) (S := S) (ts := ts)
        (w := .tree (.list (Conv.Spec.trees (a :: b :: as))))
        (g := goto' 27 s) (always (by decide) (by decide) _) (by decide) (by decide) rfl (fun _ => rfl) hg2
      exact this
end

theorem trees_var (vs : List String) : Conv.Spec.trees (vs.map .var) = vs.map (sym false) := by
  induction vs with
  | nil => rfl
  | cons v vs ih => simp [Conv.Spec.trees, T.tree, ih]

theorem okL_var (vs : List String) : okL (vs.map .var) := by
  induction vs with
  | nil => simp [okL]
  | cons v vs ih => simp [okL, ok, ih]

theorem follow_sub : ∀ k ∈ followF, k ∈ followT := by decide
theorem starts_un : ∀ s ∈ starts, action s 31 = .shift 17 ∧ action s 32 = .shift 18 ∧ action s 29 = .shift 15 ∧ action s 30 = .shift 16 := by decide
theorem starts_eq : ∀ s ∈ starts, action (goto' 10 s) 17 = .shift 50 ∧ action (goto' 10 s) 16 = .shift 49 ∧ goto' 10 s ≠ 46 := by decide
theorem starts_conn : ∀ s ∈ starts, ∀ r ∈ [31, 32, 33, 34, 35, 36, 38, 39, 40, 41], goto' r s = 28 := by decide
theorem ends : ∀ k ∈ followF, action 26 k = .reduce 29 ∧ action 35 k = .reduce 21 ∧ action 37 k = .reduce 22 ∧ action 73 k = .reduce 16 ∧
    action 74 k = .reduce 17 := by decide

/-- the rule of a connective -/
def opRule : Op → Nat
  | .and => 31 | .or => 33 | .imp => 35 | .rimp => 36 | .eqv => 38 | .xor => 39 | .nor => 34 | .nand => 32

/-- states in which a formula may begin -/
def fstarts : List Nat := [0, 19, 23, 71]

theorem fstarts_sub : ∀ s ∈ fstarts, s ∈ starts := by decide

/-- the state after a connective -/
def opState (s : Nat) (op : Op) : Nat := match action (goto' 29 s) (opTok op).kind with
  | .shift n => n
  | _ => 0

theorem op_ok (op : Op) : (opTok op).kind ∈ followF ∧ opRule op ∈ [31, 32, 33, 34, 35, 36, 38, 39, 40, 41] ∧ opRule op ≠ 3 ∧ (ent yyr2 (opRule op)).toNat = 3 ∧
    ∀ s ∈ fstarts, action (goto' 10 s) (opTok op).kind = .reduce 29 ∧ goto' 29 s ≠ 46 ∧
      action (goto' 29 s) (opTok op).kind = .shift (opState s op) ∧ opState s op ∈ starts ∧ goto' 10 (opState s op) = 26 ∧
      goto' 29 (opState s op) ≠ 46 ∧ ent yypact (goto' 29 (opState s op)) = -33 ∧ dflt (goto' 29 (opState s op)) = .reduce (opRule op) := by
  cases op <;> decide

theorem op_rule (op : Op) (f g : F) (ab x : V) : rule (opRule op) ab [.tree f.tree, x, .tree g.tree] = some (.tree (F.bin op f g).tree) := by
  cases op <;> rfl

/-- a connective and its second formula -/
theorem op_run {op : Op} {f g : F} {us : List Tok} {s : Nat} (hs : s ∈ fstarts) {v : V} {S : List (Nat × V)} {ts : List Tok} (hf : la ts ∈ followF)
    (hl : S.length + 3 < 10000)
    (hg : Goes ((opState s op, .txt (opTok op).text) :: (goto' 29 s, .tree f.tree) :: (s, v) :: S) (us ++ ts)
      ((26, .tree g.tree) :: (opState s op, .txt (opTok op).text) :: (goto' 29 s, .tree f.tree) :: (s, v) :: S) ts) :
    Goes ((goto' 10 s, .tree f.tree) :: (s, v) :: S) (opTok op :: (us ++ ts)) ((goto' 10 s, .tree (F.bin op f g).tree) :: (s, v) :: S) ts := by
  obtain ⟨-, k1, k2, k3, k4⟩ := op_ok op
  obtain ⟨h1, h2, h3, h4, h5, h6, h7, h8⟩ := k4 s hs
  have hs' := fstarts_sub s hs
  refine (red (P := []) (ts := opTok op :: (us ++ ts)) h1 (starts_eq s hs').2.2 (by decide) rfl (fun _ => rfl) rfl).trans ?_
  refine (shift (k := (opTok op).kind) (x := (opTok op).text) h3 h2 (by simp; omega)).trans ?_
  refine hg.trans ?_
  refine (red (P := []) (ends _ hf).1 (by decide) (by decide) rfl (fun _ => rfl) rfl).trans ?_
  refine (red (P := [_, _]) (s0 := s) (always h7 h8 _) h6 k2 k3 (fun _ => op_rule op f g _ _) (starts_conn s hs' _ k1)).trans ?_
  exact red (P := []) (always (by decide) (by decide) _) (by decide) (by decide) rfl (fun _ => rfl) (goto_same s hs').2.2.2.2.2.2.2.2.2

theorem pos {l : Bool} {f : F} {ts : List Tok} {n : Nat} (h : Spec.Unit l f ts n) : 1 ≤ n := by
  cases h <;> first | omega | (have := room_pos; grind)

mutual
theorem unit_run {l : Bool} : ∀ {f : F} {us : List Tok} {n : Nat}, Spec.Unit l f us n → ∀ {s : Nat}, s ∈ starts → ∀ {v : V} {S : List (Nat × V)} {ts : List Tok},
    la ts ∈ followF → S.length + 1 + n < 10000 → Goes ((s, v) :: S) (us ++ ts) ((goto' 10 s, .tree f.tree) :: (s, v) :: S) ts
  | _, _, _, .atom q p as h ha, s, hs, v, S, ts, hf, hl => by
      have := term_run (.app q p as) (by simp [ok, h, ha]) hs (v := v) (S := S) (ts := ts) (follow_sub _ hf) (by simpa [room] using hl)
      simpa [toks, T.tree, F.tree] using this
  | _, _, _, .prop q p, s, hs, v, S, ts, hf, hl => by
      have := term_run (.name q p) (by simp [ok]) hs (v := v) (S := S) (ts := ts) (follow_sub _ hf) (by simpa [room] using hl)
      simpa [toks, T.tree, F.tree] using this
  | _, _, _, .const b, s, hs, v, S, ts, hf, hl => by
      have := term_run (.name false (if b then "$true" else "$false")) (by simp [ok]) hs (v := v) (S := S) (ts := ts) (follow_sub _ hf) (by simpa [room] using hl)
      simpa [toks, T.tree, F.tree] using this
  | _, _, _, .eq a b ha hb, s, hs, v, S, ts, hf, hl => by
      have hb' := room_pos b
      simp only [List.append_assoc, List.cons_append, F.tree]
      refine (term_run a ha hs (ts := ⟨17, "="⟩ :: (toks b ++ ts)) (show 17 ∈ _ by decide) (by omega)).trans ?_
      refine (shift (k := 17) (starts_eq s hs).1 (starts_eq s hs).2.2 (by simp; omega)).trans ?_
      refine (term_run b hb (s := 50) (by decide) (follow_sub _ hf) (by simp; omega)).trans ?_
      exact red (P := [_, _]) (ends _ hf).2.2.2.2 (by decide) (by decide) rfl (fun _ => rfl) (goto_same s hs).2.2.2.1
  | _, _, _, .neq a b ha hb, s, hs, v, S, ts, hf, hl => by
      have hb' := room_pos b
      simp only [List.append_assoc, List.cons_append, F.tree]
      refine (term_run a ha hs (ts := ⟨16, "!="⟩ :: (toks b ++ ts)) (show 16 ∈ _ by decide) (by omega)).trans ?_
      refine (shift (k := 16) (starts_eq s hs).2.1 (starts_eq s hs).2.2 (by simp; omega)).trans ?_
      refine (term_run b hb (s := 49) (by decide) (follow_sub _ hf) (by simp; omega)).trans ?_
      exact red (P := [_, _]) (ends _ hf).2.2.2.1 (by decide) (by decide) rfl (fun _ => rfl) (goto_same s hs).2.2.1
  | _, _, _, .neg m h, s, hs, v, S, ts, hf, hl => by
      simp only [List.cons_append, F.tree]
      cases m with
      | true =>
        refine (shift (k := 31) (starts_un s hs).1 (starts_ne s hs) (by have := pos h; omega)).trans ?_
        refine (unit_run h (s := 17) (by decide) hf (by simp; omega)).trans ?_
        exact red (P := [_]) (ends _ hf).2.1 (by decide) (by decide) rfl (fun _ => rfl) (goto_same s hs).2.2.2.2.2.2.2.1
      | false =>
        refine (shift (k := 32) (starts_un s hs).2.1 (starts_ne s hs) (by have := pos h; omega)).trans ?_
        refine (unit_run h (s := 18) (by decide) hf (by simp; omega)).trans ?_
        exact red (P := [_]) (ends _ hf).2.2.1 (by decide) (by decide) rfl (fun _ => rfl) (goto_same s hs).2.2.2.2.2.2.2.2.1
  | _, _, _, .all (ts := us) vs hv h, s, hs, v, S, ts, hf, hl => by
      have hp := pos h
      simp only [List.cons_append, List.append_assoc, F.tree]
      refine (shift (k := 30) (starts_un s hs).2.2.2 (starts_ne s hs) (by omega)).trans ?_
      refine (shift (k := 38) (n := 34) (by decide) (by decide) (by simp; omega)).trans ?_
      refine (terms_run _ (okL_var vs) (by simpa using hv) (s := 34) (by decide) (ts := rbr :: colon :: (us ++ ts)) (show 39 ∈ _ by decide) (by simp; omega)).trans ?_
      refine (shift (k := 39) (n := 93) (by decide) (by decide) (by simp; omega)).trans ?_
      refine (shift (k := 41) (n := 98) (by decide) (by decide) (by simp; omega)).trans ?_
      refine (unit_run h (s := 98) (by decide) hf (by simp; omega)).trans ?_
      refine (red (P := []) (s := 26) (ends _ hf).1 (by decide) (by decide) rfl (fun _ => rfl) (g := 100) (by decide)).trans ?_
      rw [trees_var]
      refine (red (P := [_, _, _, _, _]) (s0 := s) (always (by decide) (by decide) _) (by decide) (by decide) rfl (fun _ => rfl) (starts_conn s hs 41 (by decide))).trans ?_
      exact red (P := []) (always (by decide) (by decide) _) (by decide) (by decide) rfl (fun _ => rfl) (goto_same s hs).2.2.2.2.2.2.2.2.2
  | _, _, _, .ex (ts := us) vs hv h, s, hs, v, S, ts, hf, hl => by
      have hp := pos h
      simp only [List.cons_append, List.append_assoc, F.tree]
      refine (shift (k := 29) (starts_un s hs).2.2.1 (starts_ne s hs) (by omega)).trans ?_
      refine (shift (k := 38) (n := 33) (by decide) (by decide) (by simp; omega)).trans ?_
      refine (terms_run _ (okL_var vs) (by simpa using hv) (s := 33) (by decide) (ts := rbr :: colon :: (us ++ ts)) (show 39 ∈ _ by decide) (by simp; omega)).trans ?_
      refine (shift (k := 39) (n := 92) (by decide) (by decide) (by simp; omega)).trans ?_
      refine (shift (k := 41) (n := 97) (by decide) (by decide) (by simp; omega)).trans ?_
      refine (unit_run h (s := 97) (by decide) hf (by simp; omega)).trans ?_
      refine (red (P := []) (s := 26) (ends _ hf).1 (by decide) (by decide) rfl (fun _ => rfl) (g := 99) (by decide)).trans ?_
      rw [trees_var]
      refine (red (P := [_, _, _, _, _]) (s0 := s) (always (by decide) (by decide) _) (by decide) (by decide) rfl (fun _ => rfl) (starts_conn s hs 40 (by decide))).trans ?_
      exact red (P := []) (always (by decide) (by decide) _) (by decide) (by decide) rfl (fun _ => rfl) (goto_same s hs).2.2.2.2.2.2.2.2.2
  | _, _, _, .paren (ts := us) h, s, hs, v, S, ts, hf, hl => by
      simp only [List.cons_append, List.append_assoc, List.nil_append]
      refine (shift (k := 34) (starts_paren s hs) (starts_ne s hs) (by omega)).trans ?_
      refine (formula_run h (s := 19) (by decide) (ts := rpar :: ts) (show 35 ∈ _ by decide) (by simp; omega)).trans ?_
      refine (shift (k := 35) (s := 39) (n := 69) (by decide) (by decide) (by simp; omega)).trans ?_
      exact red (P := [_, _]) (s0 := s) (always (by decide) (by decide) _) (by decide) (by decide) rfl (fun _ => rfl) (goto_same s hs).2.1
theorem formula_run {l : Bool} : ∀ {f : F} {us : List Tok} {n : Nat}, Formula l f us n → ∀ {s : Nat}, s ∈ fstarts → ∀ {v : V} {S : List (Nat × V)} {ts : List Tok},
    la ts ∈ followF → S.length + 1 + n < 10000 → Goes ((s, v) :: S) (us ++ ts) ((goto' 10 s, .tree f.tree) :: (s, v) :: S) ts
  | _, _, _, .unit h, s, hs, _, _, _, hf, hl => unit_run h (fstarts_sub s hs) hf hl
  | _, _, _, .chain h, _, hs, _, _, _, hf, hl => chain_run h hs hf hl
theorem chain_run {l : Bool} : ∀ {op : Op} {f : F} {us : List Tok} {n : Nat}, Chain l op f us n → ∀ {s : Nat}, s ∈ fstarts → ∀ {v : V} {S : List (Nat × V)} {ts : List Tok},
    la ts ∈ followF → S.length + 1 + n < 10000 → Goes ((s, v) :: S) (us ++ ts) ((goto' 10 s, .tree f.tree) :: (s, v) :: S) ts
  | _, _, _, _, .two (f := f) (us := us) op hf hg, s, hs, v, S, ts, ht, hl => by
      have hp := pos hg
      simp only [List.append_assoc, List.cons_append]
      refine (unit_run hf (fstarts_sub s hs) (ts := opTok op :: (us ++ ts)) (op_ok op).1 (by omega)).trans ?_
      obtain ⟨-, -, -, -, k4⟩ := op_ok op
      obtain ⟨-, -, -, h4, h5, -⟩ := k4 s hs
      refine op_run hs ht (by omega) ?_
      have := unit_run hg h4 (v := .txt (opTok op).text) (S := (goto' 29 s, .tree f.tree) :: (s, v) :: S) ht (by simp; omega)
      rw [h5] at this
      exact this
  | _, _, _, _, .more (f := f) (us := us) op op' ho hf hg, s, hs, v, S, ts, ht, hl => by
      have hp := pos hg
      simp only [List.append_assoc, List.cons_append]
      refine (chain_run hf hs (ts := opTok op :: (us ++ ts)) (op_ok op).1 (by omega)).trans ?_
      obtain ⟨-, -, -, -, k4⟩ := op_ok op
      obtain ⟨-, -, -, h4, h5, -⟩ := k4 s hs
      refine op_run hs ht (by omega) ?_
      have := unit_run hg h4 (v := .txt (opTok op).text) (S := (goto' 29 s, .tree f.tree) :: (s, v) :: S) ht (by simp; omega)
      rw [h5] at this
      exact this
end

/-- states in which a statement may begin -/
theorem sentence_states : ∀ s ∈ [0, 23], s ∈ starts ∧ s ∈ fstarts ∧ goto' 10 s = 26 ∧ goto' 29 s = 27 ∧ goto' 8 s = 25 ∧ goto' 7 s = 24 := by decide

/-- the dot after a formula -/
theorem dot_run {s : Nat} (hs : s ∈ [0, 23]) {v w : V} {S : List (Nat × V)} {ts : List Tok} (hl : S.length + 3 < 10000) :
    Goes ((26, w) :: (s, v) :: S) (dot :: ts) ((goto' 4 s, w) :: (s, v) :: S) ts := by
  obtain ⟨-, -, -, h3, h4, h5⟩ := sentence_states s hs
  refine (red (P := []) (s := 26) (ts := dot :: ts) (r := 29) (show action 26 33 = _ by decide) (by decide) (by decide) rfl (fun _ => rfl) h3).trans ?_
  refine (red (P := []) (ts := dot :: ts) (r := 8) (show action 27 33 = _ by decide) (by decide) (by decide) rfl (fun _ => rfl) h4).trans ?_
  refine (shift (k := 33) (n := 48) (by decide) (by decide) (by simp; omega)).trans ?_
  refine (red (P := [_]) (r := 7) (always (by decide) (by decide) _) (by decide) (by decide) rfl (fun _ => rfl) h5).trans ?_
  exact red (P := []) (r := 4) (always (by decide) (by decide) _) (by decide) (by decide) rfl (fun _ => rfl) rfl

theorem stmt_run {l : Bool} {x : Stmt} {us : List Tok} {n : Nat} (h : Writes l x us n) {s : Nat} (hs : s ∈ [0, 23]) {v : V} {S : List (Nat × V)} {ts : List Tok}
    (hl : S.length + 1 + n < 10000) : Goes ((s, v) :: S) (us ++ ts) ((goto' 4 s, .tree x.tree) :: (s, v) :: S) ts := by
  obtain ⟨h0, h1, h2, -, -, -⟩ := sentence_states s hs
  cases h with
  | @bare f us n h =>
    simp only [List.append_assoc, List.cons_append, List.nil_append, Stmt.tree]
    have := formula_run h h1 (v := v) (S := S) (ts := dot :: ts) (show 33 ∈ _ by decide) (by omega)
    rw [h2] at this
    exact this.trans (dot_run hs (by omega))
  | @item f us n k q nm r h =>
    simp only [List.append_assoc, List.cons_append, List.nil_append, Stmt.tree]
    refine (nameTok false k h0 (ts := lpar :: _) (show 34 ∈ _ by decide) (by omega)).trans ?_
    refine (shift (k := 34) (n := 63) (by decide) (by decide) (by simp; omega)).trans ?_
    refine (nameTok q nm (s := 63) (by decide) (ts := comma :: _) (show 40 ∈ _ by decide) (by simp; omega)).trans ?_
    refine (to_term (ts := comma :: _) (show 40 ∈ _ by decide)).trans ?_
    refine (shift (k := 40) (s := 43) (n := 71) (by decide) (by decide) (by simp; omega)).trans ?_
    refine (nameTok false r (s := 71) (by decide) (ts := comma :: _) (show 40 ∈ _ by decide) (by simp; omega)).trans ?_
    refine (to_term (ts := comma :: _) (show 40 ∈ _ by decide)).trans ?_
    refine (shift (k := 40) (s := 43) (n := 71) (by decide) (by decide) (by simp; omega)).trans ?_
    refine (formula_run h (s := 71) (by decide) (ts := rpar :: dot :: ts) (show 35 ∈ _ by decide) (by simp; omega)).trans ?_
    refine (red (P := []) (s := 43) (ts := rpar :: dot :: ts) (r := 27) (g := 95) (show action 43 35 = _ by decide) (by decide) (by decide) rfl (fun _ => rfl) (by decide)).trans ?_
    refine (red (P := [_, _]) (s := 95) (ts := rpar :: dot :: ts) (r := 28) (g := 95) (always (by decide) (by decide) _) (by decide) (by decide) rfl (fun _ => rfl) (by decide)).trans ?_
    refine (red (P := [_, _]) (s := 95) (ts := rpar :: dot :: ts) (r := 28) (g := 89) (always (by decide) (by decide) _) (by decide) (by decide) rfl (fun _ => rfl) (by decide)).trans ?_
    refine (shift (k := 35) (s := 89) (n := 96) (by decide) (by decide) (by simp; omega)).trans ?_
    refine (red (P := [_, _, _]) (s := 96) (s0 := s) (ts := dot :: ts) (r := 12) (always (by decide) (by decide) _) (by decide) (by decide) rfl (fun _ => rfl)
      ((goto_same s h0).1.trans h2)).trans ?_
    exact dot_run hs (by omega)

theorem file_run {l : Bool} : ∀ {ss : List Stmt} {us : List Tok}, File l ss us → ∀ (acc : List Lst),
    Goes [(23, .tree (.list acc)), (0, .junk)] us [(23, .tree (.list ((ss.map Stmt.tree).reverse ++ acc))), (0, .junk)] []
  | _, _, .nil, acc => fun ab sz res h1 h2 => ⟨ab, sz, h1, h2, .refl _⟩
  | _, _, .cons (s := x) (ss := ss) (us := us) h hn hs, acc => by
    have h1 := stmt_run h (s := 23) (by decide) (v := .tree (.list acc)) (S := [(0, .junk)]) (ts := us) (by simp; omega)
    have h2 : Goes [(47, V.tree x.tree), (23, .tree (.list acc)), (0, .junk)] us [(23, .tree (.list (x.tree :: acc))), (0, .junk)] us :=
      red (P := [(23, .tree (.list acc))]) (r := 6) (always (by decide) (by decide) _) (by decide) (by decide) rfl (fun _ => rfl) (by decide)
    have h3 := file_run hs (x.tree :: acc)
    have := h1.trans (h2.trans h3)
    simpa using this

/-- the end of the text -/
theorem finish (v : V) (ab : List V) (sz : Nat) (res : Option V) (h1 : 2 < sz) (h2 : sz ≤ 10000) :
    ∃ n, run n ⟨[(23, v), (0, .junk)], ab, sz, [], res⟩ = some (.accept (some v)) := by
  obtain ⟨ab1, sz1, h3, h4, h5⟩ := push_ok ⟨[(0, .junk)], [v] ++ ab, sz, [], some v⟩ 21 v (by simp; omega) h2 (by simp)
  obtain ⟨ab2, sz2, h6, h7, h8⟩ := push_ok ⟨[(21, v), (0, .junk)], ab1, sz1, [], some v⟩ 46 (.txt "") h3 h4 (by simp)
  have a1 : action 23 0 = .reduce 3 := by decide
  have a2 : action 21 0 = .shift 46 := by decide
  have a3 : (ent yyr2 3).toNat = 1 := by decide
  have a4 : goto' 3 0 = 21 := by decide
  have a5 : ∀ x, rule 3 x [v] = some v := fun _ => rfl
  refine ⟨3, ?_⟩
  have s1 : step ⟨[(23, v), (0, .junk)], ab, sz, [], res⟩ = .inl ⟨[(21, v), (0, .junk)], ab1, sz1, [], some v⟩ := by
    rw [← h5]
    simp only [step, la, a1, a3]
    simp [a4, a5]
  have s2 : step ⟨[(21, v), (0, .junk)], ab1, sz1, [], some v⟩ = .inl ⟨[(46, .txt ""), (21, v), (0, .junk)], ab2, sz2, [], some v⟩ := by
    rw [← h8]
    simp only [step, la, a2]
    simp
  simp only [run, s1, s2]
  simp [step]

/-- the parser on the tokens of a file -/
theorem run_file {l : Bool} {ss : List Stmt} {us : List Tok} (h : File l ss us) :
    ∃ n, run n (init us) = some (.accept (if ss = [] then none else some (.tree (.list (ss.map Stmt.tree).reverse)))) := by
  cases h with
  | nil => exact ⟨10, by simp only [if_true]; rfl⟩
  | @cons x ss ts us n h hn hs =>
    have h1 := stmt_run h (s := 0) (by decide) (v := .junk) (S := []) (ts := us) (by simp; omega)
    have h2 : Goes [(22, V.tree x.tree), (0, .junk)] us [(23, .tree (.list [x.tree])), (0, .junk)] us :=
      red (P := []) (r := 5) (always (by decide) (by decide) _) (by decide) (by decide) rfl (fun _ => rfl) (by decide)
    have h3 := file_run hs [x.tree]
    obtain ⟨ab, sz, h4, h5, h6⟩ := (h1.trans (h2.trans h3)) [] 200 none (by simp) (by decide)
    obtain ⟨n, hn⟩ := finish (.tree (.list ((ss.map Stmt.tree).reverse ++ [x.tree]))) ab sz none h4 h5
    refine (h6.run hn).imp fun _ hm => ?_
    rw [init, hm]
    simp

/-- more rounds change nothing -/
theorem run_more {r : Outcome} : ∀ {n : Nat} {c : Cfg}, run n c = some r → ∀ {m : Nat}, n ≤ m → run m c = some r
  | 0, c, h, m, _ => by simp [run] at h
  | n + 1, c, h, m, hm => by
    cases m with
    | zero => omega
    | succ m =>
      rw [run] at h ⊢
      split at h
      · rename_i x hx
        exact run_more h (by omega)
      · exact h

/-! ### The size of the stacks -/

theorem toks_pos : ∀ t, 1 ≤ (toks t).length := by intro t; cases t <;> simp [toks]

mutual
theorem room_le : ∀ t, ok t → room t ≤ (toks t).length
  | .var x, _ => by simp [room, toks]
  | .name q s, _ => by simp [room, toks]
  | .obj s, _ => by simp [room, toks]
  | .num t, _ => by simp [room, toks]
  | .app q f as, h => by
    have := roomL_le as h.2
    have h1 : 1 ≤ (toksL as).length := toksL_pos as h.1
    simp [room, toks]; omega
  | .arith op a b, h => by
    have := room_le a h.2.1
    have := room_le b h.2.2
    simp [room, toks]; omega
theorem roomL_le : ∀ as, okL as → roomL as ≤ (toksL as).length
  | [], _ => by simp [roomL]
  | [a], h => by simpa [roomL, toksL] using room_le a h.1
  | a :: b :: as, h => by
    have := room_le a h.1
    have := roomL_le (b :: as) h.2
    have := toks_pos a
    rw [roomL, toksL] <;> simp <;> omega
theorem toksL_pos : ∀ as, as ≠ [] → 1 ≤ (toksL as).length
  | [], h => absurd rfl h
  | [a], _ => by simpa [toksL] using toks_pos a
  | a :: b :: as, _ => by rw [toksL] <;> simp <;> omega
end

mutual
theorem unit_le {l : Bool} : ∀ {f : F} {ts : List Tok} {n : Nat}, Spec.Unit l f ts n → n ≤ ts.length ∧ 1 ≤ ts.length
  | _, _, _, .atom q p as h ha => by
    have := roomL_le as ha
    have := toksL_pos as h
    simp; omega
  | _, _, _, .prop q p => by simp
  | _, _, _, .const b => by simp
  | _, _, _, .eq a b ha hb => by
    have := room_le a ha
    have := room_le b hb
    have := toks_pos a
    simp; omega
  | _, _, _, .neq a b ha hb => by
    have := room_le a ha
    have := room_le b hb
    have := toks_pos a
    simp; omega
  | _, _, _, .neg m h => by
    have := unit_le h
    simp; omega
  | _, _, _, .all vs hv h => by
    have := unit_le h
    have h1 := toksL_pos (vs.map T.var) (by simpa using hv)
    have h2 := roomL_le (vs.map T.var) (okL_var vs)
    simp at h1 h2 ⊢; omega
  | _, _, _, .ex vs hv h => by
    have := unit_le h
    have h1 := toksL_pos (vs.map T.var) (by simpa using hv)
    have h2 := roomL_le (vs.map T.var) (okL_var vs)
    simp at h1 h2 ⊢; omega
  | _, _, _, .paren h => by
    have := formula_le h
    simp; omega
theorem formula_le {l : Bool} : ∀ {f : F} {ts : List Tok} {n : Nat}, Formula l f ts n → n ≤ ts.length ∧ 1 ≤ ts.length
  | _, _, _, .unit h => unit_le h
  | _, _, _, .chain h => chain_le h
theorem chain_le {l : Bool} : ∀ {op : Op} {f : F} {ts : List Tok} {n : Nat}, Chain l op f ts n → n ≤ ts.length ∧ 1 ≤ ts.length
  | _, _, _, _, .two op hf hg => by
    have := unit_le hf
    have := unit_le hg
    simp; omega
  | _, _, _, _, .more op op' ho hf hg => by
    have := chain_le hf
    have := unit_le hg
    simp; omega
end

theorem writes_le {l : Bool} {s : Stmt} {ts : List Tok} {n : Nat} (h : Writes l s ts n) : n ≤ ts.length := by
  cases h with
  | bare h => have := formula_le h; simp; omega
  | item k q nm r h => have := formula_le h; simp; omega

/-! ### The list determines the meaning -/

section
open Gkc.Conv.Spec (Struct sym word trees)
variable {D : Type} (S : Struct D)

mutual
theorem ev_tree : ∀ (t u : T), t.tree = u.tree → caps t → caps u → ∀ v, S.ev v t = S.ev v u
  | .var x, u, h, hc, hd, v => by
    cases u <;> simp_all [T.tree, sym, word, caps, Struct.ev]
  | .name q s, u, h, hc, hd, v => by
    cases u <;> simp_all [T.tree, sym, word, caps, Struct.ev] <;> (try (rename_i q' s'; cases q <;> cases q' <;> simp_all)) <;> (cases q <;> simp_all)
  | .obj s, u, h, hc, hd, v => by
    cases u <;> simp_all [T.tree, sym, word, caps, Struct.ev] <;> (rename_i q' s'; cases q' <;> simp_all)
  | .num t, u, h, hc, hd, v => by
    cases u <;> simp_all [T.tree, sym, word, caps, Struct.ev]
  | .app q f as, u, h, hc, hd, v => by
    cases u with
    | app q' f' as' =>
      simp only [T.tree, Conv.Lst.list.injEq, List.cons.injEq, sym, Conv.Lst.atom.injEq, Conv.Atm.mk.injEq] at h
      simp only [caps] at hc hd
      rw [Struct.ev, Struct.ev, evL_tree as as' h.2 hc hd v, h.1.2.1]
    | _ => simp_all [T.tree, sym, word]
  | .arith op a b, u, h, hc, hd, v => by
    cases u with
    | arith op' a' b' =>
      simp only [T.tree, Conv.Lst.list.injEq, List.cons.injEq, word, Conv.Lst.atom.injEq, Conv.Atm.mk.injEq, and_true, true_and] at h
      simp only [caps] at hc hd
      rw [Struct.ev, Struct.ev, ev_tree a a' h.2.1 hc.1 hd.1 v, ev_tree b b' h.2.2 hc.2 hd.2 v, h.1]
    | _ => simp_all [T.tree, sym, word]
theorem evL_tree : ∀ (as bs : List T), trees as = trees bs → capsL as → capsL bs → ∀ v, S.evL v as = S.evL v bs
  | [], bs, h, _, _, v => by
    cases bs with
    | nil => rfl
    | cons b bs => simp [trees] at h
  | a :: as, bs, h, hc, hd, v => by
    cases bs with
    | nil => simp [trees] at h
    | cons b bs =>
      simp only [trees, List.cons.injEq] at h
      simp only [capsL] at hc hd
      rw [Struct.evL, Struct.evL, ev_tree a b h.1 hc.1 hd.1 v, evL_tree as bs h.2 hc.2 hd.2 v]
end

/-- without the connectives for which there is no list of their own -/
def norm : F → F
  | .const b => .prop false (if b then "$true" else "$false")
  | .neq a b => .neg (.eq a b)
  | .neg f => .neg (norm f)
  | .bin op a b => match op with
    | .and => .bin .and (norm a) (norm b)
    | .or => .bin .or (norm a) (norm b)
    | .imp => .bin .imp (norm a) (norm b)
    | .rimp => .bin .imp (norm b) (norm a)
    | .eqv => .bin .eqv (norm a) (norm b)
    | .xor => .neg (.bin .eqv (norm a) (norm b))
    | .nor => .neg (.bin .or (norm a) (norm b))
    | .nand => .neg (.bin .and (norm a) (norm b))
  | .all vs f => .all vs (norm f)
  | .ex vs f => .ex vs (norm f)
  | f => f

/-- a formula after `norm` -/
def Normal : F → Prop
  | .const _ => False
  | .neq _ _ => False
  | .neg f => Normal f
  | .bin op a b => (op = .and ∨ op = .or ∨ op = .imp ∨ op = .eqv) ∧ Normal a ∧ Normal b
  | .all _ f => Normal f
  | .ex _ f => Normal f
  | _ => True

theorem norm_normal : ∀ f : F, Normal (norm f)
  | .atom _ _ _ => by simp [norm, Normal]
  | .prop _ _ => by simp [norm, Normal]
  | .const _ => by simp [norm, Normal]
  | .eq _ _ => by simp [norm, Normal]
  | .neq _ _ => by simp [norm, Normal]
  | .neg f => by simpa [norm, Normal] using norm_normal f
  | .bin op a b => by
    have := norm_normal a
    have := norm_normal b
    cases op <;> simp_all [norm, Normal]
  | .all _ f => by simpa [norm, Normal] using norm_normal f
  | .ex _ f => by simpa [norm, Normal] using norm_normal f

theorem norm_tree : ∀ f : F, (norm f).tree = f.tree
  | .atom _ _ _ => by simp [norm]
  | .prop _ _ => by simp [norm]
  | .const _ => by simp [norm, F.tree]
  | .eq _ _ => by simp [norm]
  | .neq _ _ => by simp [norm, F.tree]
  | .neg f => by simp [norm, F.tree, norm_tree f]
  | .bin op a b => by
    have := norm_tree a
    have := norm_tree b
    cases op <;> simp_all [norm, F.tree]
  | .all _ f => by simp [norm, F.tree, norm_tree f]
  | .ex _ f => by simp [norm, F.tree, norm_tree f]

theorem norm_caps : ∀ f : F, capsF f → capsF (norm f)
  | .atom _ _ _, h => by simpa [norm] using h
  | .prop _ _, h => by simp [norm, capsF]
  | .const _, h => by simp [norm, capsF]
  | .eq _ _, h => by simpa [norm] using h
  | .neq _ _, h => by simpa [norm, capsF] using h
  | .neg f, h => by simpa [norm, capsF] using norm_caps f h
  | .bin op a b, h => by
    have := norm_caps a h.1
    have := norm_caps b h.2
    cases op <;> simp_all [norm, capsF]
  | .all _ f, h => by simpa [norm, capsF] using norm_caps f h
  | .ex _ f, h => by simpa [norm, capsF] using norm_caps f h

theorem norm_means (hS : S.pr "$true" [] ∧ ¬ S.pr "$false" []) : ∀ (f : F) (v : String → D), S.means v (norm f) ↔ S.means v f
  | .atom _ _ _, v => by simp [norm]
  | .prop _ _, v => by simp [norm]
  | .const b, v => by cases b <;> simp [norm, Struct.means, hS]
  | .eq _ _, v => by simp [norm]
  | .neq _ _, v => by simp [norm, Struct.means]
  | .neg f, v => by simp [norm, Struct.means, norm_means hS f v]
  | .bin op a b, v => by
    have := norm_means hS a v
    have := norm_means hS b v
    cases op <;> simp_all [norm, Struct.means, Conv.Spec.Op.holds]
  | .all _ f, v => by simp [norm, Struct.means, norm_means hS f]
  | .ex _ f, v => by simp [norm, Struct.means, norm_means hS f]

theorem sym_inj {q q' : Bool} {s s' : String} (h : sym q s = sym q' s') : s = s' := by
  simp only [sym, Conv.Lst.atom.injEq, Conv.Atm.mk.injEq] at h
  exact h.2.1

theorem syms_inj : ∀ {vs ws : List String}, vs.map (sym false) = ws.map (sym false) → vs = ws
  | [], [], _ => rfl
  | [], _ :: _, h => by simp at h
  | _ :: _, [], h => by simp at h
  | v :: vs, w :: ws, h => by
    simp only [List.map_cons, List.cons.injEq] at h
    rw [sym_inj h.1, syms_inj h.2]

/-- a word is not a name -/
theorem word_sym {s s' : String} {q : Bool} : word s ≠ sym q s' := by simp [word, sym]

theorem normal_tree : ∀ (f g : F), Normal f → Normal g → f.tree = g.tree → capsF f → capsF g → ∀ v, S.means v f ↔ S.means v g
  | .atom q p as, g, nf, ng, h, cf, cg, v => by
    cases g with
    | atom q' p' as' =>
      simp only [F.tree, Conv.Lst.list.injEq, List.cons.injEq] at h
      rw [Struct.means, Struct.means, evL_tree S as as' h.2 cf cg v, sym_inj h.1]
    | bin op a b => cases op <;> simp_all [F.tree, sym, word]
    | _ => simp_all [F.tree, sym, word, Normal]
  | .prop q p, g, nf, ng, h, cf, cg, v => by
    cases g with
    | prop q' p' =>
      simp only [F.tree] at h
      rw [Struct.means, Struct.means, sym_inj h]
    | bin op a b => cases op <;> simp_all [F.tree, sym, word]
    | _ => simp_all [F.tree, sym, word, Normal]
  | .const b, g, nf, ng, h, cf, cg, v => nf.elim
  | .neq a b, g, nf, ng, h, cf, cg, v => nf.elim
  | .eq a b, g, nf, ng, h, cf, cg, v => by
    cases g with
    | eq a' b' =>
      simp only [F.tree, Conv.Lst.list.injEq, List.cons.injEq, true_and, and_true] at h
      rw [Struct.means, Struct.means, ev_tree S a a' h.1 cf.1 cg.1 v, ev_tree S b b' h.2 cf.2 cg.2 v]
    | bin op a b => cases op <;> simp_all [F.tree, sym, word]
    | _ => simp_all [F.tree, sym, word, Normal]
  | .neg f, g, nf, ng, h, cf, cg, v => by
    cases g with
    | neg g =>
      simp only [F.tree, Conv.Lst.list.injEq, List.cons.injEq, true_and, and_true] at h
      rw [Struct.means, Struct.means, normal_tree f g nf ng h cf cg v]
    | bin op a b => cases op <;> simp_all [F.tree, sym, word, Normal]
    | _ => simp_all [F.tree, sym, word, Normal]
  | .bin op a b, g, nf, ng, h, cf, cg, v => by
    obtain ⟨ho, na, nb⟩ := nf
    cases g with
    | bin op' a' b' =>
      obtain ⟨ho', na', nb'⟩ := ng
      have key : op = op' ∧ a.tree = a'.tree ∧ b.tree = b'.tree := by
        rcases ho with rfl | rfl | rfl | rfl <;> rcases ho' with rfl | rfl | rfl | rfl <;> simp_all [F.tree, word]
      rw [Struct.means, Struct.means, normal_tree a a' na na' key.2.1 cf.1 cg.1 v, normal_tree b b' nb nb' key.2.2 cf.2 cg.2 v, key.1]
    | _ => rcases ho with rfl | rfl | rfl | rfl <;> simp_all [F.tree, sym, word, Normal]
  | .all vs f, g, nf, ng, h, cf, cg, v => by
    cases g with
    | all ws g =>
      simp only [F.tree, Conv.Lst.list.injEq, List.cons.injEq, true_and, and_true] at h
      rw [Struct.means, Struct.means, syms_inj h.1]
      simp only [normal_tree f g nf ng h.2 cf cg]
    | bin op a b => cases op <;> simp_all [F.tree, sym, word, Normal]
    | _ => simp_all [F.tree, sym, word, Normal]
  | .ex vs f, g, nf, ng, h, cf, cg, v => by
    cases g with
    | ex ws g =>
      simp only [F.tree, Conv.Lst.list.injEq, List.cons.injEq, true_and, and_true] at h
      rw [Struct.means, Struct.means, syms_inj h.1]
      simp only [normal_tree f g nf ng h.2 cf cg]
    | bin op a b => cases op <;> simp_all [F.tree, sym, word, Normal]
    | _ => simp_all [F.tree, sym, word, Normal]

/-- formulas of which the same list is made mean the same -/
theorem means_tree (hS : S.pr "$true" [] ∧ ¬ S.pr "$false" []) (f g : F) (h : f.tree = g.tree) (cf : capsF f) (cg : capsF g) (v : String → D) :
    S.means v f ↔ S.means v g := by
  rw [← norm_means S hS f v, ← norm_means S hS g v]
  exact normal_tree S _ _ (norm_normal f) (norm_normal g) (by rw [norm_tree, norm_tree, h]) (norm_caps f cf) (norm_caps g cg) v
end

/-! ### Comparing answers, for the examples -/

mutual
/-- equality of lists -/
def same : Lst → Lst → Bool
  | .atom a, .atom b => a.ty == b.ty && a.s1 == b.s1 && a.s2 == b.s2
  | .list l, .list m => sameL l m
  | _, _ => false
def sameL : List Lst → List Lst → Bool
  | [], [] => true
  | a :: l, b :: m => same a b && sameL l m
  | _, _ => false
end

mutual
theorem same_eq : ∀ {a b : Lst}, same a b = true → a = b
  | .atom a, .atom b, h => by
    simp only [same, Bool.and_eq_true, beq_iff_eq] at h
    obtain ⟨⟨h1, h2⟩, h3⟩ := h
    cases a; cases b; simp_all
  | .list l, .list m, h => by
    rw [same] at h
    rw [sameL_eq h]
  | .atom _, .list _, h => by simp [same] at h
  | .list _, .atom _, h => by simp [same] at h
theorem sameL_eq : ∀ {l m : List Lst}, sameL l m = true → l = m
  | [], [], _ => rfl
  | a :: l, b :: m, h => by
    simp only [sameL, Bool.and_eq_true] at h
    rw [same_eq h.1, sameL_eq h.2]
  | [], _ :: _, h => by simp [sameL] at h
  | _ :: _, [], h => by simp [sameL] at h
end

/-- the answer is a list -/
def isTree (r : Option Outcome) (t : Lst) : Bool := match r with
  | some (.accept (some (.tree u))) => same u t
  | _ => false

theorem isTree_eq {r : Option Outcome} {t : Lst} (h : isTree r t = true) : r = some (.accept (some (.tree t))) := by
  unfold isTree at h
  split at h
  · rw [same_eq h]
  · cases h

theorem isError_eq {r : Option Outcome} (h : (match r with | some .error => true | _ => false) = true) : r = some .error := by
  split at h
  · rfl
  · cases h

theorem isUndef_eq {r : Option Outcome} (h : (match r with | some .undef => true | _ => false) = true) : r = some .undef := by
  split at h
  · rfl
  · cases h

end Gkc.Ps
