import Verif.LockInv
/-
What the sections of Verif/Lock.lean do to the parts of the queue, and the invariant of all processes together.
-/
namespace Gkc.Lock

theorem split_at {A B X Y : List Nat} {n : Nat} (h : A ++ B = X ++ n :: Y) :
    (∃ Y1, A = X ++ n :: Y1 ∧ Y = Y1 ++ B) ∨ (∃ X2, X = A ++ X2 ∧ B = X2 ++ n :: Y) := by
  rcases List.append_eq_append_iff.1 h with ⟨C, h1, h2⟩ | ⟨C, h1, h2⟩
  · exact .inr ⟨C, h1, h2⟩
  · cases C with
    | nil => exact .inr ⟨[], by simpa using h1.symm, by simpa using h2.symm⟩
    | cons c C =>
      simp only [List.cons_append, List.cons.injEq] at h2
      obtain ⟨rfl, rfl⟩ := h2
      exact .inl ⟨C, h1, rfl⟩

theorem op_quit {m m' A B R X Y n} (L : Links m (A ++ B) R) (G : Grant m A B) (e : A ++ B = X ++ n :: Y)
    (hw : m'.wt = m.wt) (hc : m'.cls = m.cls) :
    ∃ A' B', A' ++ B' = X ++ Y ∧ Grant m' A' B' ∧ (∀ k ∈ A, k ≠ n → k ∈ A') ∧ (n ∉ A → A' = A) := by
  rcases split_at e with ⟨Y1, rfl, rfl⟩ | ⟨X2, rfl, rfl⟩
  · refine ⟨X ++ Y1, B, by simp, ⟨?_, ?_, ?_⟩, ?_, fun h => absurd (by simp) h⟩
    · intro k hk
      rw [hw]
      exact G.gr k (by simp only [List.mem_append, List.mem_cons] at hk ⊢; grind)
    · intro k hk; rw [hw]; exact G.wa k hk
    · right
      intro k hk
      rw [hc]
      rcases G.kind with ⟨z, hz⟩ | hz
      · cases X with
        | nil =>
          simp only [List.nil_append, List.cons.injEq] at hz
          rw [hz.2] at hk; simp at hk
        | cons x X => simp at hz
      · exact hz k (by simp only [List.mem_append, List.mem_cons] at hk ⊢; grind)
    · intro k hk hne
      simp only [List.mem_append, List.mem_cons] at hk ⊢; grind
  · refine ⟨A, X2 ++ Y, by simp, ⟨?_, ?_, ?_⟩, fun k hk _ => hk, fun _ => rfl⟩
    · intro k hk; rw [hw]; exact G.gr k hk
    · intro k hk
      rw [hw]
      exact G.wa k (by simp only [List.mem_append, List.mem_cons] at hk ⊢; grind)
    · rw [hc]; exact G.kind

/-- the first waiting one gets the lock -/
theorem Grant.give {m m' : Mem} {A B : List Nat} {x : Nat} (G : Grant m A (x :: B)) (nd : (A ++ x :: B).Nodup)
    (hw : m'.wt = upd m.wt x 0) (hc : m'.cls = m.cls)
    (hk : A = [] ∨ ((∀ n ∈ A, m.cls n = code false) ∧ m.cls x = code false)) : Grant m' (A ++ [x]) B := by
  simp only [List.nodup_append, List.nodup_cons, List.mem_cons] at nd
  obtain ⟨n1, ⟨n2, n3⟩, n4⟩ := nd
  refine ⟨?_, ?_, ?_⟩
  · intro k hk
    rw [hw]
    by_cases h : k = x
    · rw [h, upd_same]
    · rw [upd_ne _ _ h]
      exact G.gr k (by simp only [List.mem_append, List.mem_cons] at hk; grind)
  · intro k hkB
    rw [hw, upd_ne _ _ (by rintro rfl; exact n2 hkB)]
    exact G.wa k (by simp [hkB])
  · rcases hk with rfl | ⟨h1, h2⟩
    · exact .inl ⟨x, rfl⟩
    · right
      intro k hk
      rw [hc]
      simp only [List.mem_append, List.mem_cons] at hk
      rcases hk with hk | rfl | hk
      · exact h1 k hk
      · exact h2
      · simp at hk

theorem Grant.kinds {m A B n} (G : Grant m A B) (hn : n ∈ A) (hc : m.cls n = code false) :
    ∀ k ∈ A, m.cls k = code false := by
  rcases G.kind with ⟨z, rfl⟩ | h
  · simp only [List.mem_singleton] at hn ⊢
    subst hn
    rintro k rfl; exact hc
  · exact h

theorem op_relR {m m' A B R X Y n} (L : Links m (A ++ B) R) (G : Grant m A B) (e : A ++ B = X ++ n :: Y)
    (hn : n ∈ A) (hcn : m.cls n = code false)
    (hw : m'.wt = if Lock.give m n then upd m.wt (m.nx n) 0 else m.wt) (hc : m'.cls = m.cls) :
    ∃ A' B', A' ++ B' = X ++ Y ∧ Grant m' A' B' ∧ (∀ k ∈ A, k ≠ n → k ∈ A') ∧ (A' ++ B' ≠ [] → A' ≠ []) := by
  have nd := L.nd
  have all := G.kinds hn hcn
  rcases split_at e with ⟨Y1, rfl, rfl⟩ | ⟨X2, rfl, rfl⟩
  · obtain ⟨hp, hx⟩ := L.lnk X n (Y1 ++ B) (by simp)
    have keep : ∀ k ∈ X ++ n :: Y1, k ≠ n → k ∈ X ++ Y1 := by
      intro k hk hne
      simp only [List.mem_append, List.mem_cons] at hk ⊢; grind
    have G0 : Grant m (X ++ Y1) B := by
      refine ⟨fun k hk => G.gr k ?_, G.wa, .inr fun k hk => all k ?_⟩ <;>
      · simp only [List.mem_append, List.mem_cons] at hk ⊢; grind
    have plain : ¬ Lock.give m n → Grant m' (X ++ Y1) B := by
      intro h
      rw [if_neg h] at hw
      exact ⟨by rw [hw]; exact G0.gr, by rw [hw]; exact G0.wa, by rw [hc]; exact G0.kind⟩
    cases hY : Y1 with
    | cons y Y2 =>
      subst hY
      have hy : m.nx n = y := by rw [hx]; rfl
      refine ⟨X ++ y :: Y2, B, by simp, plain ?_, keep, by simp⟩
      intro h
      rw [Lock.give, hy] at h
      exact h.2.1 (G.gr y (by simp))
    | nil =>
      subst hY
      simp only [List.append_nil, List.nil_append] at *
      cases B with
      | nil =>
        refine ⟨X, [], by simp, plain ?_, keep, by simp⟩
        intro h; exact h.1 hx
      | cons b B =>
        have hb : m.nx n = b := by rw [hx]; rfl
        have hwb : m.wt b = 1 := G.wa b (by simp)
        have hb0 : b ≠ 0 := L.nz b (by simp)
        have ndb : (X ++ b :: B).Nodup := by
          simp only [List.append_assoc, List.cons_append, List.nil_append, List.nodup_append, List.nodup_cons,
            List.mem_append, List.mem_cons] at nd ⊢
          grind
        by_cases hg : Lock.give m n
        · refine ⟨X ++ [b], B, by simp, ?_, ?_, by simp⟩
          · refine G0.give ndb (by rw [hw, if_pos hg, hb]) hc ?_
            rcases hg.2.2 with h | h
            · left
              rcases nil_or_concat X with rfl | ⟨X', z, rfl⟩
              · rfl
              · exfalso
                rw [hp] at h
                exact L.nz z (by simp) (by simpa [List.getLastD_eq_getLast?] using h)
            · right
              exact ⟨fun k hk => all k (by simp [hk]), by rw [← hb]; exact h⟩
          · intro k hk hne
            exact List.mem_append_left _ (keep k hk hne)
        · refine ⟨X, b :: B, by simp, plain hg, keep, ?_⟩
          rintro - rfl
          exact hg ⟨by rw [hb]; exact hb0, by rw [hb, hwb]; decide, .inl hp⟩
  · exfalso
    simp only [List.append_assoc, List.nodup_append, List.mem_append, List.mem_cons] at nd
    exact nd.2.2 n hn n (.inr (.inl (.inl rfl))) rfl

theorem op_relW {m m' A B R X Y n} (L : Links m (A ++ B) R) (G : Grant m A B) (e : A ++ B = X ++ n :: Y)
    (hn : n ∈ A) (hcn : m.cls n = code true)
    (hw : m'.wt = if m.nx n ≠ 0 then upd m.wt (m.nx n) 0 else m.wt) (hc : m'.cls = m.cls) :
    ∃ A' B', A' ++ B' = X ++ Y ∧ Grant m' A' B' ∧ (∀ k ∈ A, k ≠ n → k ∈ A') ∧ (A' ++ B' ≠ [] → A' ≠ []) := by
  have hA : A = [n] := by
    rcases G.kind with ⟨z, rfl⟩ | h
    · simp only [List.mem_singleton] at hn; rw [hn]
    · have := h n hn
      rw [hcn] at this; simp [code] at this
  subst hA
  have nd := L.nd
  rcases split_at e with ⟨Y1, h1, h2⟩ | ⟨X2, h1, h2⟩
  · have hX : X = [] := by cases X with | nil => rfl | cons x X => simp at h1
    subst hX
    have hY : Y1 = [] := by simpa using h1.symm
    subst hY
    simp only [List.nil_append] at h2 ⊢
    subst h2
    obtain ⟨hp, hx⟩ := L.lnk [] n Y (by simp)
    have keep : ∀ A' : List Nat, ∀ k ∈ [n], k ≠ n → k ∈ A' := by
      intro A' k hk hne; simp at hk; exact absurd hk hne
    cases Y with
    | nil =>
      refine ⟨[], [], rfl, ⟨by simp, by simp, .inr (by simp)⟩, keep _, by simp⟩
    | cons y Y =>
      have hy : m.nx n = y := by rw [hx]; rfl
      have hy0 : y ≠ 0 := L.nz y (by simp)
      refine ⟨[y], Y, rfl, ?_, keep _, by simp⟩
      have G0 : Grant m [] (y :: Y) := ⟨by simp, G.wa, .inr (by simp)⟩
      refine G0.give (A := []) ?_ (by rw [hw, hy, if_pos hy0]) hc (.inl rfl)
      simp only [List.nil_append, List.nodup_cons] at *
      simp only [List.append_assoc, List.cons_append, List.nil_append, List.nodup_append, List.nodup_cons,
            List.mem_append, List.mem_cons] at nd
      grind
  · exfalso
    rw [h2] at nd
    simp at nd

theorem op_enq {m m' A B R t w} (L : Links m (A ++ B) (t :: R)) (G : Grant m A B)
    (hw : m'.wt = upd m.wt t (newWt m w)) (hc : m'.cls = upd m.cls t (code w)) :
    ∃ A' B', A' ++ B' = (A ++ B) ++ [t] ∧ Grant m' A' B' ∧ (∀ k ∈ A, k ∈ A') ∧
      ((A ++ B ≠ [] → A ≠ []) → A' ≠ []) := by
  have nd := L.nd
  simp only [List.nodup_append, List.nodup_cons, List.mem_cons, List.mem_append] at nd
  have tA : t ∉ A := fun h => nd.2.2 t (.inl h) t (.inl rfl) rfl
  have tB : t ∉ B := fun h => nd.2.2 t (.inr h) t (.inl rfl) rfl
  have ne : ∀ {k}, k ∈ A ∨ k ∈ B → k ≠ t := by rintro k (h | h) rfl; exact tA h; exact tB h
  by_cases hg : newWt m w = 0
  · have hB : B = [] ∧ (A = [] ∨ (w = false ∧ ∀ k ∈ A, m.cls k = code false)) := by
      unfold newWt at hg
      split at hg
      · rename_i h
        by_cases hQ : A ++ B = []
        · have := List.append_eq_nil_iff.1 hQ
          exact ⟨this.2, .inl this.1⟩
        · have h0 : m.tail ≠ 0 := by
            rw [L.tail]; exact L.nz _ (List.mem_append_left _ (getLastD_mem hQ 0))
          rcases h with h | ⟨h1, h2, h3⟩
          · exact absurd h h0
          · rcases nil_or_concat B with rfl | ⟨B', b, rfl⟩
            · refine ⟨rfl, .inr ⟨h1, ?_⟩⟩
              simp only [List.append_nil] at hQ
              refine G.kinds (n := m.tail) ?_ h2
              rw [L.tail, List.append_nil]; exact getLastD_mem hQ 0
            · exfalso
              have : m.tail = b := by rw [L.tail, ← List.append_assoc]; simp [List.getLastD_eq_getLast?]
              rw [this, G.wa b (by simp)] at h3
              cases h3
      · cases hg
    obtain ⟨rfl, hA⟩ := hB
    refine ⟨A ++ [t], [], by simp, ⟨?_, by simp, ?_⟩, fun k hk => List.mem_append_left _ hk, by simp⟩
    · intro k hk
      rw [hw]
      simp only [List.mem_append, List.mem_singleton] at hk
      rcases hk with hk | rfl
      · rw [upd_ne _ _ (ne (.inl hk))]; exact G.gr k hk
      · rw [upd_same, hg]
    · rcases hA with rfl | ⟨h1, h2⟩
      · exact .inl ⟨t, rfl⟩
      · right
        intro k hk
        rw [hc]
        simp only [List.mem_append, List.mem_singleton] at hk
        rcases hk with hk | rfl
        · rw [upd_ne _ _ (ne (.inl hk))]; exact h2 k hk
        · rw [upd_same, h1]
  · have h1 : newWt m w = 1 := by
      unfold newWt at hg ⊢
      split
      · rename_i h; rw [if_pos h] at hg; exact absurd rfl hg
      · rfl
    have hQ : A ++ B ≠ [] := by
      intro h
      have h0 : m.tail = 0 := by rw [L.tail, h]; rfl
      unfold newWt at h1
      rw [if_pos (.inl h0)] at h1
      cases h1
    refine ⟨A, B ++ [t], by simp, ⟨?_, ?_, ?_⟩, fun k hk => hk, fun h => h hQ⟩
    · intro k hk; rw [hw, upd_ne _ _ (ne (.inl hk))]; exact G.gr k hk
    · intro k hk
      rw [hw]
      simp only [List.mem_append, List.mem_singleton] at hk
      rcases hk with hk | rfl
      · rw [upd_ne _ _ (ne (.inr hk))]; exact G.wa k hk
      · rw [upd_same, h1]
    · rcases G.kind with h | h
      · exact .inl h
      · right
        intro k hk
        rw [hc, upd_ne _ _ (ne (.inl hk))]; exact h k hk

theorem op_chain {m A B R n} (L : Links m (A ++ B) R) (G : Grant m A B) (hn : n ∈ A) (hcn : m.cls n = code false) :
    ∃ A' B', A' ++ B' = A ++ B ∧ Grant (apps (prog (.chain n) m).1 m) A' B' ∧ (∀ k ∈ A, k ∈ A') := by
  have nd := L.nd
  have all := G.kinds hn hcn
  unfold prog
  simp only []
  split
  · rename_i h
    obtain ⟨h0, h1, h2⟩ := h
    obtain ⟨X, Y, hA⟩ := List.append_of_mem hn
    subst hA
    obtain ⟨hp, hx⟩ := L.lnk X n (Y ++ B) (by simp)
    cases Y with
    | cons y Y =>
      exfalso
      have hy : m.nx n = y := by rw [hx]; rfl
      exact h2 (by rw [hy]; exact G.gr y (by simp))
    | nil =>
      cases B with
      | nil => exact absurd hx h0
      | cons b B =>
        have hb : m.nx n = b := by rw [hx]; rfl
        refine ⟨X ++ [n] ++ [b], B, by simp, ?_, fun k hk => List.mem_append_left _ hk⟩
        refine G.give ?_ ?_ rfl (.inr ⟨all, by rw [← hb]; exact h1⟩)
        · exact (List.nodup_append.1 nd).1
        · simp [apps, Wr.app, hb]
  · exact ⟨A, B, rfl, G, fun k hk => hk⟩

/-! ### All processes -/

/-- the node of a process that was queued, with the kind of the lock -/
def After.owns : After → Option (Bool × Nat)
  | .zero => none
  | .look w n => some (w, n)
  | .fin _ h => h.map fun n => (false, n)

def PC.owns : PC → Option (Bool × Nat)
  | .idle | .spin (.enq _) => none
  | .spin (.rel w n) | .spin (.quit w n) | .look w n | .call w n | .blocked w n | .held w n => some (w, n)
  | .spin (.chain n) => some (false, n)
  | .sect _ k => k.owns
  | .waking _ h => h.map fun n => (false, n)

/-- the node of a process that acts as one that got the lock -/
def PC.granted : PC → Option Nat
  | .held _ n | .spin (.rel _ n) | .spin (.chain n) => some n
  | .sect _ (.fin _ h) | .waking _ h => h
  | _ => none

def PC.inSect : PC → Bool
  | .sect _ _ => true
  | _ => false

/-- the memory `m` at the end of the section that is being executed -/
def Sec (s : St) (m : Mem) : Prop :=
  (s.q = 0 ∧ s.mem = m ∧ ∀ (i : Nat) (c : PC), s.pcs[i]? = some c → c.inSect = false) ∨
  (∃ (i : Nat) (ws : List Wr) (k : After), s.q ≠ 0 ∧ s.pcs[i]? = some (.sect ws k) ∧ m = apps ws s.mem ∧
    (∀ (j : Nat) (c : PC), s.pcs[j]? = some c → c.inSect = true → j = i) ∧
    ∀ x v, Wr.wt x v ∈ ws → v = 0 ∨ ∃ w, k = .look w x)

structure LInv (s : St) (h : List (Nat × Nat)) (m : Mem) (A B R : List Nat) : Prop where
  links : Links m (A ++ B) R
  grant : Grant m A B
  hq : h.map Prod.snd = A ++ B
  own : ∀ i n, (i, n) ∈ h ↔ ∃ (c : PC) (w : Bool), s.pcs[i]? = some c ∧ c.owns = some (w, n)
  cls : ∀ {i : Nat} {c : PC} {w n}, s.pcs[i]? = some c → c.owns = some (w, n) → m.cls n = code w
  got : ∀ {i : Nat} {c : PC} {n}, s.pcs[i]? = some c → c.granted = some n → n ∈ A
  sec : Sec s m

theorem pc_get {s : St} {i : Nat} {c c' : PC} (h : s.pcs[i]? = some c) (j : Nat) :
    (s.pc i c').pcs[j]? = if j = i then some c' else s.pcs[j]? := by
  have hi : i < s.pcs.length := by
    rcases Nat.lt_or_ge i s.pcs.length with h' | h'
    · exact h'
    · rw [List.getElem?_eq_none h'] at h; cases h
  simp only [St.pc, List.getElem?_set]
  by_cases hj : i = j
  · subst hj; simp [hi]
  · rw [if_neg hj, if_neg (by omega)]

theorem snd_inj : ∀ {h : List (Nat × Nat)} {x y : Nat × Nat}, (h.map Prod.snd).Nodup → x ∈ h → y ∈ h → x.2 = y.2 → x = y
  | [], _, _, _, hx, _, _ => by simp at hx
  | z :: h, x, y, nd, hx, hy, e => by
    simp only [List.map_cons, List.nodup_cons, List.mem_map] at nd
    rcases List.mem_cons.1 hx with rfl | hx'
    · rcases List.mem_cons.1 hy with rfl | hy'
      · rfl
      · exact absurd ⟨y, hy', e.symm⟩ nd.1
    · rcases List.mem_cons.1 hy with rfl | hy'
      · exact absurd ⟨x, hx', e⟩ nd.1
      · exact snd_inj nd.2 hx' hy' e

/-- a step of a process outside of the sections -/
theorem LInv.move {s h m A B R} (I : LInv s h m A B R) {i : Nat} {c c' : PC} (hc : s.pcs[i]? = some c) (h1 : c.inSect = false)
    (h2 : c'.inSect = false) (ho : c'.owns = c.owns) (hg : ∀ n, c'.granted = some n → n ∈ A) :
    LInv (s.pc i c') h m A B R := by
  have g := fun j => pc_get (c' := c') hc j
  refine ⟨I.links, I.grant, I.hq, ?_, ?_, ?_, ?_⟩
  · intro j n
    rw [I.own, g]
    by_cases hj : j = i
    · subst hj; rw [if_pos rfl, hc]; simp [ho]
    · rw [if_neg hj]
  · intro j d w n hd hw
    rw [g] at hd
    by_cases hj : j = i
    · rw [if_pos hj] at hd
      cases hd
      exact I.cls hc (by rw [← ho]; exact hw)
    · rw [if_neg hj] at hd; exact I.cls hd hw
  · intro j d n hd hw
    rw [g] at hd
    by_cases hj : j = i
    · rw [if_pos hj] at hd
      cases hd
      exact hg n hw
    · rw [if_neg hj] at hd; exact I.got hd hw
  · rcases I.sec with ⟨q1, q2, q3⟩ | ⟨x, ws, k, q1, q2, q3, q4, q5⟩
    · refine .inl ⟨q1, q2, ?_⟩
      intro j d hd
      rw [g] at hd
      by_cases hj : j = i
      · rw [if_pos hj] at hd; cases hd; exact h2
      · rw [if_neg hj] at hd; exact q3 j d hd
    · have hx : x ≠ i := by
        rintro rfl
        rw [hc] at q2; cases q2; cases h1
      refine .inr ⟨x, ws, k, q1, by rw [g, if_neg hx]; exact q2, q3, ?_, q5⟩
      intro j d hd hs
      rw [g] at hd
      by_cases hj : j = i
      · rw [if_pos hj] at hd; cases hd; rw [h2] at hs; cases hs
      · rw [if_neg hj] at hd; exact q4 j d hd hs

/-- what a process reads in its own field `waiting` -/
theorem LInv.reads {s h m A B R} (I : LInv s h m A B R) {i : Nat} {c : PC} {w n} (hc : s.pcs[i]? = some c) (h1 : c.inSect = false)
    (ho : c.owns = some (w, n)) (hr : s.mem.wt n ≠ 1) : n ∈ A := by
  have hin : (i, n) ∈ h := (I.own i n).2 ⟨c, w, hc, ho⟩
  have hQ : n ∈ A ++ B := by rw [← I.hq]; exact List.mem_map.2 ⟨_, hin, rfl⟩
  rcases List.mem_append.1 hQ with h' | h'
  · exact h'
  · exfalso
    have hw := I.grant.wa n h'
    rcases I.sec with ⟨q1, q2, q3⟩ | ⟨x, ws, k, q1, q2, q3, q4, q5⟩
    · rw [q2] at hr; exact hr hw
    · have key : ∀ (ws : List Wr) (m0 : Mem), (∀ v, Wr.wt n v ∈ ws → v = 0) →
          (apps ws m0).wt n = m0.wt n ∨ (apps ws m0).wt n = 0 := by
        intro ws
        induction ws with
        | nil => intro m0 _; exact .inl rfl
        | cons y ws ih =>
          intro m0 hz
          have ih' := ih (y.app m0) fun v hv => hz v (by simp [hv])
          have hy : (y.app m0).wt n = m0.wt n ∨ (y.app m0).wt n = 0 := by
            cases y with
            | wt a v =>
              by_cases ha : n = a
              · subst ha
                right
                simp only [Wr.app, upd_same]
                exact hz v (by simp)
              · left; simp only [Wr.app]; exact upd_ne _ _ ha
            | _ => exact .inl rfl
          simp only [apps]
          rcases ih' with e | e
          · rcases hy with e' | e'
            · exact .inl (e.trans e')
            · exact .inr (e.trans e')
          · exact .inr e
      rcases key ws s.mem (by
        intro v hv
        rcases q5 n v hv with h0 | ⟨w', h0⟩
        · exact h0
        · exfalso
          have : (x, n) ∈ h := (I.own x n).2 ⟨_, w', q2, by subst h0; rfl⟩
          have nd : (h.map Prod.snd).Nodup := by rw [I.hq]; exact (List.nodup_append.1 I.links.nd).1
          have hxi : (x, n) = (i, n) :=
            snd_inj nd this hin rfl
          cases hxi
          rw [hc] at q2; cases q2; cases h1) with e | e
      · rw [← q3] at e; rw [← e] at hr; exact hr hw
      · rw [← q3] at e; rw [e] at hw; cases hw

theorem PC.granted_owns {c : PC} {n : Nat} (h : c.granted = some n) : ∃ w, c.owns = some (w, n) := by
  cases c with
  | idle => cases h
  | spin op => cases op <;> first | (cases h; exact ⟨_, rfl⟩) | cases h
  | sect ws k =>
    cases k with
    | fin a x => simp only [PC.granted] at h; subst h; exact ⟨false, rfl⟩
    | _ => cases h
  | look w n => cases h
  | call w n => cases h
  | blocked w n => cases h
  | waking a x => simp only [PC.granted] at h; subst h; exact ⟨false, rfl⟩
  | held w n => cases h; exact ⟨_, rfl⟩

theorem LInv.nodup {s h m A B R} (I : LInv s h m A B R) : (h.map Prod.snd).Nodup := by
  rw [I.hq]; exact (List.nodup_append.1 I.links.nd).1

theorem LInv.mem {s h m A B R} (I : LInv s h m A B R) {i n : Nat} (hin : (i, n) ∈ h) : n ∈ A ++ B := by
  rw [← I.hq]; exact List.mem_map.2 ⟨_, hin, rfl⟩

/-- with the queue lock free nothing is under way -/
theorem LInv.calm {s h m A B R} (I : LInv s h m A B R) (hq : s.q = 0) :
    s.mem = m ∧ ∀ (j : Nat) (c : PC), s.pcs[j]? = some c → c.inSect = false := by
  rcases I.sec with ⟨_, q2, q3⟩ | ⟨_, _, _, q1, _⟩
  · exact ⟨q2, q3⟩
  · exact absurd hq q1

/-- a process gets the queue lock -/
theorem LInv.enter {s h m A B R} (I : LInv s h m A B R) {i : Nat} {op : Op} (hc : s.pcs[i]? = some (.spin op))
    (hq : s.q = 0) {ws k h' m' A' B' R'} (hm : m' = apps ws s.mem) (links : Links m' (A' ++ B') R')
    (grant : Grant m' A' B') (hh : h'.map Prod.snd = A' ++ B')
    (own : ∀ j n, (j, n) ∈ h' ↔ if j = i then ∃ w, k.owns = some (w, n) else (j, n) ∈ h)
    (cls : ∀ n ∈ A ++ B, m'.cls n = m.cls n) (cls' : ∀ w n, k.owns = some (w, n) → m'.cls n = code w)
    (hA : ∀ n ∈ A, (i, n) ∉ h → n ∈ A') (got : ∀ n, (PC.sect ws k).granted = some n → n ∈ A')
    (wts : ∀ x v, Wr.wt x v ∈ ws → v = 0 ∨ ∃ w, k = .look w x) :
    LInv ({ s with q := 1 }.pc i (.sect ws k)) h' m' A' B' R' := by
  obtain ⟨h0, h1⟩ := I.calm hq
  have g : ∀ j, ({ s with q := 1 }.pc i (.sect ws k)).pcs[j]? = if j = i then some (.sect ws k) else s.pcs[j]? :=
    fun j => pc_get (s := { s with q := 1 }) (c := .spin op) hc j
  refine ⟨links, grant, hh, ?_, ?_, ?_, ?_⟩
  · intro j n
    rw [own, g]
    by_cases hj : j = i
    · rw [if_pos hj, if_pos hj]
      constructor
      · rintro ⟨w, h⟩; exact ⟨_, w, rfl, h⟩
      · rintro ⟨c, w, h, h'⟩; cases h; exact ⟨w, h'⟩
    · rw [if_neg hj, if_neg hj]; exact I.own j n
  · intro j c w n hj ho
    rw [g] at hj
    by_cases hji : j = i
    · rw [if_pos hji] at hj; cases hj; exact cls' w n ho
    · rw [if_neg hji] at hj
      rw [cls n (I.mem ((I.own j n).2 ⟨c, w, hj, ho⟩))]
      exact I.cls hj ho
  · intro j c n hj hg
    rw [g] at hj
    by_cases hji : j = i
    · rw [if_pos hji] at hj; cases hj; exact got n hg
    · rw [if_neg hji] at hj
      refine hA n (I.got hj hg) fun hin => ?_
      obtain ⟨w, ho⟩ := PC.granted_owns hg
      have := snd_inj I.nodup hin ((I.own j n).2 ⟨c, w, hj, ho⟩) rfl
      exact hji (congrArg Prod.fst this).symm
  · refine .inr ⟨i, ws, k, by simp [St.pc], by rw [g, if_pos rfl], hm, ?_, wts⟩
    intro j c hj hs
    rw [g] at hj
    by_cases hji : j = i
    · exact hji
    · rw [if_neg hji] at hj
      rw [h1 j c hj] at hs; cases hs

/-- leaving the queue -/
theorem LInv.leave {s h m A B R} (I : LInv s h m A B R) {i n : Nat} {c : PC} {w : Bool} (hc : s.pcs[i]? = some c)
    (ho : c.owns = some (w, n)) :
    ∃ X Y, A ++ B = X ++ n :: Y ∧ (h.filter (·.1 ≠ i)).map Prod.snd = X ++ Y ∧
      ∀ j k, (j, k) ∈ h.filter (·.1 ≠ i) ↔ if j = i then ∃ w, After.zero.owns = some (w, k) else (j, k) ∈ h := by
  have hin : (i, n) ∈ h := (I.own i n).2 ⟨c, w, hc, ho⟩
  have only : ∀ k, (i, k) ∈ h → k = n := by
    intro k hk
    obtain ⟨c', w', e1, e2⟩ := (I.own i k).1 hk
    rw [hc] at e1; cases e1
    rw [ho] at e2; cases e2; rfl
  obtain ⟨P, S, rfl⟩ := List.append_of_mem hin
  have nd := I.nodup
  simp only [List.map_append, List.map_cons, List.nodup_append, List.nodup_cons, List.mem_map, List.mem_cons] at nd
  have fP : P.filter (·.1 ≠ i) = P := by
    rw [List.filter_eq_self]
    rintro ⟨a, b⟩ hab
    simp only [ne_eq, decide_not, Bool.not_eq_eq_eq_not, Bool.not_true, decide_eq_false_iff_not]
    rintro rfl
    have := only b (by simp [hab])
    subst this
    exact nd.2.2 b ⟨_, hab, rfl⟩ b (.inl rfl) rfl
  have fS : S.filter (·.1 ≠ i) = S := by
    rw [List.filter_eq_self]
    rintro ⟨a, b⟩ hab
    simp only [ne_eq, decide_not, Bool.not_eq_eq_eq_not, Bool.not_true, decide_eq_false_iff_not]
    rintro rfl
    have := only b (by simp [hab])
    subst this
    exact nd.2.1.1 ⟨_, hab, rfl⟩
  refine ⟨P.map Prod.snd, S.map Prod.snd, by rw [← I.hq]; simp, ?_, ?_⟩
  · rw [List.filter_append, fP, List.filter_cons, if_neg (by simp), fS]; simp
  · intro j k
    rw [List.mem_filter]
    by_cases hj : j = i
    · simp [hj, After.owns]
    · simp [hj]

/-- who joins and leaves the queue when process `i` gets the queue lock -/
def arrive (i : Nat) (op : Op) (m : Mem) (h : List (Nat × Nat)) : List (Nat × Nat) :=
  match op with
  | .enq _ => if m.free = 0 then h else h ++ [(i, m.free)]
  | .rel _ _ | .quit _ _ => h.filter (·.1 ≠ i)
  | .chain _ => h

theorem prog_wt (op : Op) (m : Mem) : ∀ x v, Wr.wt x v ∈ (prog op m).1 → v = 0 ∨ ∃ w, (prog op m).2 = .look w x := by
  intro x v hx
  cases op with
  | enq w =>
    by_cases h : m.free = 0
    · simp [prog, h] at hx
    · right
      refine ⟨w, ?_⟩
      by_cases h1 : m.tail = 0
      · simp [prog, h, h1] at hx ⊢; exact hx.1.symm
      · simp [prog, h, h1] at hx ⊢; exact hx.1.symm
  | rel w n =>
    left
    cases w <;> simp only [prog, freeLock, List.mem_append, List.mem_cons, List.not_mem_nil, reduceCtorEq, or_false] at hx
    · grind
    · grind
  | quit w n =>
    left
    simp only [prog, freeLock, List.mem_append, List.mem_cons, List.not_mem_nil, reduceCtorEq, or_false] at hx
    grind
  | chain n =>
    left
    unfold prog at hx
    simp only [] at hx
    split at hx <;> simp at hx
    exact hx.2

theorem LInv.cas {s h m A B R} (I : LInv s h m A B R) {i : Nat} {op : Op} (hc : s.pcs[i]? = some (.spin op))
    (hq : s.q = 0) :
    ∃ m' A' B' R', LInv ({ s with q := 1 }.pc i (.sect (prog op s.mem).1 (prog op s.mem).2)) (arrive i op s.mem h) m' A' B' R' ∧
      ((A ++ B ≠ [] → A ≠ []) → (∀ w n, op = .quit w n → n ∉ A) → (A' ++ B' ≠ [] → A' ≠ [])) := by
  obtain ⟨rfl, hns⟩ := I.calm hq
  have wts := prog_wt op s.mem
  cases op with
  | enq w =>
    cases R with
    | nil =>
      have hf : s.mem.free = 0 := I.links.free
      have hp : prog (.enq w) s.mem = ([], .zero) := by unfold prog; simp [hf]
      rw [hp] at wts ⊢
      refine ⟨s.mem, A, B, [], ?_, fun h _ => h⟩
      have ha : arrive i (.enq w) s.mem h = h := by simp [arrive, hf]
      rw [ha]
      refine I.enter hc hq rfl I.links I.grant I.hq ?_ (fun _ _ => rfl) (by intro _ _ h; cases h) (fun n hn _ => hn)
        (by intro _ h; cases h) wts
      intro j n
      by_cases hj : j = i
      · subst hj
        rw [if_pos rfl, I.own]
        constructor
        · rintro ⟨c, w', e1, e2⟩; rw [hc] at e1; cases e1; cases e2
        · rintro ⟨w', e⟩; cases e
      · rw [if_neg hj]
    | cons t R =>
      have hf : s.mem.free = t := I.links.free.1
      have ht0 : t ≠ 0 := I.links.nz t (by simp)
      obtain ⟨E, hw⟩ := enq_enq s.mem w (by rw [hf]; exact ht0)
      rw [hf] at E hw
      have hk : (prog (.enq w) s.mem).2 = .look w t := by unfold prog; simp [hf, ht0]
      obtain ⟨A', B', e1, G, hA, hd⟩ := op_enq I.links I.grant hw E.cls
      have ha : arrive i (.enq w) s.mem h = h ++ [(i, t)] := by simp [arrive, hf, ht0]
      have tQ : t ∉ A ++ B := by
        intro ht
        have := I.links.nd
        rw [List.nodup_append] at this
        exact this.2.2 t ht t (by simp) rfl
      rw [ha]
      refine ⟨apps (prog (.enq w) s.mem).1 s.mem, A', B', R, ?_, fun h1 _ _ => hd h1⟩
      refine I.enter hc hq rfl (by rw [e1]; exact I.links.add E) G (by rw [List.map_append, I.hq, e1]; rfl) ?_ ?_ ?_
        (fun n hn _ => hA n hn) ?_ wts
      · intro j n
        rw [hk]
        simp only [List.mem_append, List.mem_cons, List.not_mem_nil, or_false, Prod.mk.injEq, After.owns, Option.some.injEq]
        by_cases hj : j = i
        · subst hj
          rw [if_pos rfl]
          constructor
          · rintro (hin | ⟨_, rfl⟩)
            · obtain ⟨c, w', e1, e2⟩ := (I.own j n).1 hin
              rw [hc] at e1; cases e1; cases e2
            · exact ⟨w, rfl, rfl⟩
          · rintro ⟨_, _, rfl⟩; exact .inr ⟨rfl, rfl⟩
        · rw [if_neg hj]
          simp [hj]
      · intro n hn
        rw [E.cls, upd_ne _ _ (by rintro rfl; exact tQ hn)]
      · intro w' n ho
        rw [hk] at ho
        cases ho
        rw [E.cls, upd_same]
      · intro n hg; rw [hk] at hg; cases hg
  | rel w n =>
    have hn : n ∈ A := I.got hc rfl
    have hcn := I.cls hc (w := w) rfl
    obtain ⟨X, Y, e1, e2, e3⟩ := I.leave hc (w := w) (n := n) rfl
    have ha : arrive i (.rel w n) s.mem h = h.filter (·.1 ≠ i) := rfl
    rw [ha]
    have L := I.links
    cases w with
    | true =>
      have hA1 : A = [n] := by
        rcases I.grant.kind with ⟨z, rfl⟩ | hh
        · simp only [List.mem_singleton] at hn; rw [hn]
        · have := hh n hn
          rw [hcn] at this; simp [code] at this
      have hp0 : s.mem.pv n = 0 := (L.lnk [] n B (by rw [hA1]; rfl)).1
      obtain ⟨D, hw⟩ := relW_deq s.mem n hp0
      obtain ⟨A', B', e4, G, hA, hd⟩ := op_relW I.links I.grant e1 hn hcn hw D.cls
      rw [e1] at L
      refine ⟨apps (prog (.rel true n) s.mem).1 s.mem, A', B', n :: R, ?_, fun _ _ => hd⟩
      refine I.enter hc hq rfl (by rw [e4]; exact L.remove D) G (by rw [e2, e4]) e3 (fun k _ => by rw [D.cls]) ?_ ?_ ?_ wts
      · intro w' k ho; cases ho
      · intro k hk hki
        refine hA k hk ?_
        rintro rfl
        exact hki ((I.own i k).2 ⟨_, _, hc, rfl⟩)
      · intro k hg; cases hg
    | false =>
      obtain ⟨D, hw⟩ := relR_deq s.mem n
      obtain ⟨A', B', e4, G, hA, hd⟩ := op_relR I.links I.grant e1 hn hcn hw D.cls
      rw [e1] at L
      refine ⟨apps (prog (.rel false n) s.mem).1 s.mem, A', B', n :: R, ?_, fun _ _ => hd⟩
      refine I.enter hc hq rfl (by rw [e4]; exact L.remove D) G (by rw [e2, e4]) e3 (fun k _ => by rw [D.cls]) ?_ ?_ ?_ wts
      · intro w' k ho; cases ho
      · intro k hk hki
        refine hA k hk ?_
        rintro rfl
        exact hki ((I.own i k).2 ⟨_, _, hc, rfl⟩)
      · intro k hg; cases hg
  | quit w n =>
    obtain ⟨X, Y, e1, e2, e3⟩ := I.leave hc (w := w) (n := n) rfl
    have ha : arrive i (.quit w n) s.mem h = h.filter (·.1 ≠ i) := rfl
    rw [ha]
    have L := I.links
    obtain ⟨D, hw⟩ := quit_deq s.mem w n
    obtain ⟨A', B', e4, G, hA, hd⟩ := op_quit I.links I.grant e1 hw D.cls
    rw [e1] at L
    refine ⟨apps (prog (.quit w n) s.mem).1 s.mem, A', B', n :: R, ?_, ?_⟩
    · refine I.enter hc hq rfl (by rw [e4]; exact L.remove D) G (by rw [e2, e4]) e3 (fun k _ => by rw [D.cls]) ?_ ?_ ?_ wts
      · intro w' k ho; cases ho
      · intro k hk hki
        refine hA k hk ?_
        rintro rfl
        exact hki ((I.own i k).2 ⟨_, _, hc, rfl⟩)
      · intro k hg; cases hg
    · intro h1 h2 _
      rw [hd (h2 w n rfl)]
      exact h1 (by rw [e1]; simp)
  | chain n =>
    have hn : n ∈ A := I.got hc rfl
    have hcn := I.cls hc (w := false) rfl
    obtain ⟨A', B', e1, G, hA⟩ := op_chain I.links I.grant hn hcn
    have hk : (prog (.chain n) s.mem).2.owns = some (false, n) := by
      unfold prog; simp only []; split <;> rfl
    have hg : ∀ ws, (PC.sect ws (prog (.chain n) s.mem).2).granted = some n := by
      intro ws; unfold prog; simp only []; split <;> rfl
    have same : ∀ P : Mem → Prop, P s.mem → (∀ f, P { s.mem with wt := f }) → P (apps (prog (.chain n) s.mem).1 s.mem) := by
      intro P h1 h2
      unfold prog; simp only []; split
      · exact h2 _
      · exact h1
    refine ⟨apps (prog (.chain n) s.mem).1 s.mem, A', B', R, ?_, ?_⟩
    · refine I.enter hc hq rfl ?_ G (by rw [e1]; exact I.hq) ?_ ?_ ?_ (fun k hk _ => hA k hk) ?_ wts
      · rw [e1]
        exact same (fun m => Links m (A ++ B) R) I.links fun f => I.links.congr rfl rfl rfl rfl rfl
      · intro j k
        by_cases hj : j = i
        · subst hj
          rw [if_pos rfl, hk]
          show (j, k) ∈ h ↔ _
          rw [I.own]
          constructor
          · rintro ⟨c, w', e1, e2⟩; rw [hc] at e1; cases e1; exact ⟨w', e2⟩
          · rintro ⟨w', e⟩; exact ⟨_, w', hc, e⟩
        · rw [if_neg hj]; exact Iff.rfl
      · intro k _
        exact same (fun m => m.cls k = s.mem.cls k) rfl fun f => rfl
      · intro w' k ho
        rw [hk] at ho
        cases ho
        rw [same (fun m => m.cls n = s.mem.cls n) rfl fun f => rfl]
        exact hcn
      · intro k hk'
        rw [hg] at hk'
        cases hk'
        exact hA n hn
    · intro h1 _ _ h2
      cases A with
      | nil => simp at hn
      | cons a A => have := hA a (by simp); rw [h2] at this; simp at this

end Gkc.Lock
