import Verif.Lock
/-
The queue of Verif/Lock.lean as a list, and what every section does to it.
-/
namespace Gkc.Lock

theorem upd_same (f : Nat → Nat) (a v : Nat) : upd f a v a = v := by simp [upd]
theorem upd_ne (f : Nat → Nat) {a b : Nat} (v : Nat) (h : b ≠ a) : upd f a v b = f b := by simp [upd, h]

/-- the queue: links between neighbours -/
def Lnk (pv nx : Nat → Nat) (Q : List Nat) : Prop :=
  ∀ X n Y, Q = X ++ n :: Y → pv n = X.getLastD 0 ∧ nx n = Y.headD 0

/-- the list of free nodes -/
def Fch (cell : Nat → Nat) : Nat → List Nat → Prop
  | f, [] => f = 0
  | f, x :: l => f = x ∧ Fch cell (cell x) l

/-- the queue `Q` and the free nodes `R` -/
structure Links (m : Mem) (Q R : List Nat) : Prop where
  nd : (Q ++ R).Nodup
  nz : ∀ n ∈ Q ++ R, n ≠ 0
  lnk : Lnk m.pv m.nx Q
  tail : m.tail = Q.getLastD 0
  free : Fch m.cell m.free R

/-- the front part `A` of the queue may use the lock, the other part `B` waits -/
structure Grant (m : Mem) (A B : List Nat) : Prop where
  gr : ∀ n ∈ A, m.wt n = 0
  wa : ∀ n ∈ B, m.wt n = 1
  kind : (∃ n, A = [n]) ∨ ∀ n ∈ A, m.cls n = code false

theorem Fch.congr {c c' : Nat → Nat} : ∀ {l f}, Fch c f l → (∀ n ∈ l, c' n = c n) → Fch c' f l
  | [], _, h, _ => h
  | x :: l, _, ⟨h1, h2⟩, e => ⟨h1, by rw [e x (by simp)]; exact h2.congr fun n hn => e n (by simp [hn])⟩

theorem getLastD_mem {l : List Nat} (h : l ≠ []) (d : Nat) : l.getLastD d ∈ l := by
  rw [List.getLastD_eq_getLast?, List.getLast?_eq_some_getLast h]
  exact List.getLast_mem h

theorem headD_mem {l : List Nat} (h : l ≠ []) (d : Nat) : l.headD d ∈ l := by
  cases l with
  | nil => exact absurd rfl h
  | cons a l => simp

theorem nil_or_concat (l : List Nat) : l = [] ∨ ∃ L b, l = L ++ [b] := by
  rcases List.eq_nil_or_concat l with h | ⟨L, b, h⟩
  · exact .inl h
  · exact .inr ⟨L, b, by simpa using h⟩

theorem getLastD_append {l : List Nat} (h : l ≠ []) (X : List Nat) (d d' : Nat) : (X ++ l).getLastD d = l.getLastD d' := by
  rcases nil_or_concat l with rfl | ⟨L, b, rfl⟩
  · exact absurd rfl h
  · simp [← List.append_assoc, List.getLastD_eq_getLast?]

/-- a node is taken out of the queue and given to the free ones -/
structure Deq (m m' : Mem) (n : Nat) : Prop where
  nx : m'.nx = if m.pv n ≠ 0 then upd m.nx (m.pv n) (m.nx n) else m.nx
  pv : m'.pv = if m.nx n ≠ 0 then upd m.pv (m.nx n) (m.pv n) else m.pv
  tail : m'.tail = if m.nx n = 0 ∧ m.tail = n then m.pv n else m.tail
  cell : m'.cell = upd m.cell n m.free
  free : m'.free = n
  cls : m'.cls = m.cls

theorem Links.remove {m m' X n Y R} (L : Links m (X ++ n :: Y) R) (d : Deq m m' n) : Links m' (X ++ Y) (n :: R) := by
  have nd := L.nd
  have nz := L.nz
  obtain ⟨hp, hx⟩ := L.lnk X n Y rfl
  have zX : X ≠ [] → m.pv n ≠ 0 := fun h => by rw [hp]; exact nz _ (by rw [List.append_assoc]; exact List.mem_append_left _ (getLastD_mem h 0))
  have zY : Y ≠ [] → m.nx n ≠ 0 := fun h => by rw [hx]; exact nz _ (List.mem_append_left _ (List.mem_append_right _ (List.mem_cons_of_mem _ (headD_mem h 0))))
  simp only [List.append_assoc, List.cons_append, List.nodup_append, List.nodup_cons, List.mem_append, List.mem_cons] at nd
  obtain ⟨n1, ⟨n2, n3, n4, n5⟩, n6⟩ := nd
  refine ⟨?_, ?_, ?_, ?_, ?_⟩
  · simp only [List.append_assoc, List.nodup_append, List.nodup_cons, List.mem_append, List.mem_cons]
    refine ⟨n1, ⟨n3, ⟨fun h => n2 (.inr h), n4⟩, ?_⟩, ?_⟩
    · rintro a ha b (rfl | hb)
      · rintro rfl; exact n2 (.inl ha)
      · exact n5 a ha b hb
    · rintro a ha b (hb | rfl | hb)
      · exact n6 a ha b (.inr (.inl hb))
      · exact n6 a ha b (.inl rfl)
      · exact n6 a ha b (.inr (.inr hb))
  · intro k hk
    apply nz
    simp only [List.mem_append, List.mem_cons] at hk ⊢
    grind
  · intro X' z Y' e
    rw [d.nx, d.pv]
    rcases List.append_eq_append_iff.1 e with ⟨C, rfl, hY⟩ | ⟨C, rfl, hY⟩
    · -- z in Y
      obtain ⟨g1, g2⟩ := L.lnk (X ++ n :: C) z Y' (by simp [hY])
      have hzY : z ∈ Y := by simp [hY]
      have hzp : z ≠ m.pv n ∨ m.pv n = 0 := by
        by_cases h : X = []
        · right; rw [hp, h]; rfl
        · left; rintro rfl
          exact n6 _ (by rw [hp]; exact getLastD_mem h 0) _ (.inr (.inl hzY)) rfl
      constructor
      · rw [if_pos (zY (by rintro rfl; simp at hzY))]
        cases C with
        | nil =>
          have : m.nx n = z := by rw [hx, hY]; rfl
          rw [this, upd_same, hp]; simp
        | cons c C =>
          have : m.nx n = c := by rw [hx, hY]; rfl
          have hc : z ≠ c := by
            rintro rfl
            rw [hY] at n3
            simp at n3
          rw [this, upd_ne _ _ hc, g1]
          simp [List.getLastD_eq_getLast?]
      · split
        · rename_i h
          rw [upd_ne _ _ (by rcases hzp with h' | h'; exact h'; exact absurd h' h), g2]
        · exact g2
    · cases C with
      | nil =>
        -- z is the head of Y
        simp only [List.nil_append] at hY
        have e' : X' = X' ++ [] := by simp
        obtain ⟨g1, g2⟩ := L.lnk (X' ++ [n]) z Y' (by simp [← hY])
        have hzY : z ∈ Y := by simp [← hY]
        simp only [List.append_nil] at *
        constructor
        · have : m.nx n = z := by rw [hx, ← hY]; rfl
          rw [if_pos (by rw [this]; exact nz z (by simp [hzY])), this, upd_same, hp]
        · split
          · rename_i h
            have hX : X' ≠ [] := by rintro rfl; exact h hp
            rw [upd_ne _ _ ?_, g2]
            rintro rfl
            exact n6 _ (by rw [hp]; exact getLastD_mem hX 0) _ (.inr (.inl hzY)) rfl
          · exact g2
      | cons c C =>
        -- z in X
        simp only [List.cons_append, List.cons.injEq] at hY
        obtain ⟨rfl, rfl⟩ := hY
        obtain ⟨g1, g2⟩ := L.lnk X' z (C ++ n :: Y) (by simp)
        have hzX : z ∈ X' ++ z :: C := by simp
        have hpz : m.pv n ≠ 0 := zX (by simp)
        constructor
        · split
          · rename_i h
            have hY : Y ≠ [] := by rintro rfl; exact h hx
            rw [upd_ne _ _ ?_, g1]
            rintro rfl
            exact n6 _ hzX _ (.inr (.inl (by rw [hx]; exact headD_mem hY 0))) rfl
          · exact g1
        · rw [if_pos hpz]
          by_cases hC : C = []
          · subst hC
            have : m.pv n = z := by rw [hp]; simp [List.getLastD_eq_getLast?]
            rw [this, upd_same, hx]; rfl
          · have h1 : m.pv n ∈ C := by
              rw [hp]
              have : (X' ++ z :: C).getLastD 0 = C.getLastD 0 := by
                rw [show X' ++ z :: C = (X' ++ [z]) ++ C by simp, getLastD_append hC]
              rw [this]; exact getLastD_mem hC 0
            rw [upd_ne _ _ ?_, g2]
            · cases C with
              | nil => exact absurd rfl hC
              | cons c C => rfl
            · rintro rfl
              simp only [List.nodup_append, List.nodup_cons] at n1
              exact n1.2.1.1 h1
  · rw [d.tail, L.tail]
    by_cases hY : Y = []
    · subst hY
      rw [if_pos ⟨hx, by simp [List.getLastD_eq_getLast?]⟩, hp]; simp
    · rw [if_neg (fun h => zY hY h.1)]
      rw [getLastD_append hY X 0 0, show X ++ n :: Y = (X ++ [n]) ++ Y by simp, getLastD_append hY _ 0 0]
  · rw [d.free, d.cell]
    refine ⟨rfl, ?_⟩
    rw [upd_same]
    refine L.free.congr fun k hk => upd_ne _ _ ?_
    rintro rfl
    exact n2 (.inr hk)

/-- a node joins the queue -/
structure Enq (m m' : Mem) (t : Nat) (w : Bool) : Prop where
  nx : m'.nx = if m.tail ≠ 0 then upd (upd m.nx t 0) m.tail t else upd m.nx t 0
  pv : m'.pv = upd m.pv t m.tail
  tail : m'.tail = t
  cell : m'.cell = m.cell
  free : m'.free = m.cell t
  cls : m'.cls = upd m.cls t (code w)

theorem Links.add {m m' Q t R w} (L : Links m Q (t :: R)) (d : Enq m m' t w) : Links m' (Q ++ [t]) R := by
  have nd := L.nd
  have nz := L.nz
  have zQ : Q ≠ [] → m.tail ≠ 0 := fun h => by rw [L.tail]; exact nz _ (List.mem_append_left _ (getLastD_mem h 0))
  simp only [List.nodup_append, List.nodup_cons, List.mem_cons] at nd
  obtain ⟨n1, ⟨n2, n3⟩, n4⟩ := nd
  have htQ : t ∉ Q := fun h => n4 t h t (.inl rfl) rfl
  refine ⟨?_, ?_, ?_, ?_, ?_⟩
  · simp only [List.append_assoc, List.nodup_append, List.nodup_cons, List.mem_append, List.mem_cons]
    refine ⟨n1, ⟨⟨by simp, by simp⟩, n3, ?_⟩, ?_⟩
    · rintro a (rfl | h) b hb
      · rintro rfl; exact n2 hb
      · simp at h
    · rintro a ha b ((rfl | h) | hb)
      · exact n4 a ha b (.inl rfl)
      · simp at h
      · exact n4 a ha b (.inr hb)
  · intro k hk
    apply nz
    simp only [List.mem_append, List.mem_cons] at hk ⊢
    grind
  · intro X z Y e
    rw [d.nx, d.pv]
    rcases nil_or_concat Y with rfl | ⟨Y', y, rfl⟩
    · obtain ⟨rfl, h⟩ := List.append_inj' e (by simp)
      simp only [List.cons.injEq, and_true] at h
      subst h
      refine ⟨by rw [upd_same, L.tail], ?_⟩
      split
      · rename_i h
        have hQ : Q ≠ [] := by rintro rfl; exact h L.tail
        rw [upd_ne, upd_same]; rfl
        rintro h; exact htQ (by rw [h, L.tail]; exact getLastD_mem hQ 0)
      · rw [upd_same]; rfl
    · rw [show X ++ z :: (Y' ++ [y]) = (X ++ z :: Y') ++ [y] by simp] at e
      obtain ⟨rfl, h⟩ := List.append_inj' e (by simp)
      simp only [List.cons.injEq, and_true] at h
      subst h
      obtain ⟨g1, g2⟩ := L.lnk X z Y' rfl
      have hzt : z ≠ t := by rintro rfl; exact htQ (by simp)
      rw [if_pos (zQ (by simp)), upd_ne _ _ hzt]
      refine ⟨g1, ?_⟩
      by_cases hY : Y' = []
      · subst hY
        have : m.tail = z := by rw [L.tail]; simp [List.getLastD_eq_getLast?]
        rw [this, upd_same]; rfl
      · have h1 : m.tail ∈ Y' := by
          rw [L.tail]
          have : (X ++ z :: Y').getLastD 0 = Y'.getLastD 0 := by
            rw [show X ++ z :: Y' = (X ++ [z]) ++ Y' by simp, getLastD_append hY]
          rw [this]; exact getLastD_mem hY 0
        rw [upd_ne _ _ ?_, upd_ne _ _ hzt, g2]
        · cases Y' with
          | nil => exact absurd rfl hY
          | cons c C => rfl
        · rintro rfl
          simp only [List.nodup_append, List.nodup_cons] at n1
          exact n1.2.1.1 h1
  · rw [d.tail]; simp [List.getLastD_eq_getLast?]
  · rw [d.free, d.cell]
    have := L.free
    obtain ⟨h1, h2⟩ := this
    exact h2

theorem Links.congr {m m' Q R} (L : Links m Q R) (h1 : m'.nx = m.nx) (h2 : m'.pv = m.pv) (h3 : m'.tail = m.tail)
    (h4 : m'.cell = m.cell) (h5 : m'.free = m.free) : Links m' Q R :=
  ⟨L.nd, L.nz, by rw [h1, h2]; exact L.lnk, by rw [h3]; exact L.tail, by rw [h4, h5]; exact L.free⟩

theorem apps_append : ∀ (a b : List Wr) (m : Mem), apps (a ++ b) m = apps b (apps a m)
  | [], _, _ => rfl
  | x :: a, b, m => apps_append a b (x.app m)

/-! ### The sections -/

theorem quit_deq (m : Mem) (w : Bool) (n : Nat) : Deq m (apps (prog (.quit w n) m).1 m) n ∧
    (apps (prog (.quit w n) m).1 m).wt = m.wt := by
  unfold prog freeLock
  by_cases h1 : m.pv n = 0 <;> by_cases h2 : m.nx n = 0 <;> by_cases h3 : m.tail = n <;>
    simp only [h1, h2, h3, ne_eq, not_true_eq_false, not_false_eq_true, if_true, if_false] <;>
    refine ⟨⟨?_, ?_, ?_, ?_, ?_, ?_⟩, ?_⟩ <;> simp [apps, Wr.app, h1, h2, h3]

/-- the next process gets the lock -/
def give (m : Mem) (n : Nat) : Prop := m.nx n ≠ 0 ∧ m.wt (m.nx n) ≠ 0 ∧ (m.pv n = 0 ∨ m.cls (m.nx n) = code false)

instance (m : Mem) (n : Nat) : Decidable (give m n) := by unfold give; infer_instance

theorem relR_deq (m : Mem) (n : Nat) : Deq m (apps (prog (.rel false n) m).1 m) n ∧
    (apps (prog (.rel false n) m).1 m).wt = if give m n then upd m.wt (m.nx n) 0 else m.wt := by
  have hg : (m.nx n ≠ 0 ∧ m.wt (m.nx n) ≠ 0 ∧ (m.pv n = 0 ∨ m.cls (m.nx n) = code false)) = give m n := rfl
  have g0 : m.nx n = 0 → ¬ give m n := fun h g => g.1 h
  unfold prog freeLock
  simp only [hg]
  by_cases h1 : m.pv n = 0 <;> by_cases h2 : m.nx n = 0 <;> by_cases h3 : m.tail = n <;> by_cases h4 : give m n <;>
    first
    | exact absurd h4 (g0 h2)
    | (simp only [h1, h2, h3, h4, ne_eq, not_true_eq_false, not_false_eq_true, if_true, if_false]
       refine ⟨⟨?_, ?_, ?_, ?_, ?_, ?_⟩, ?_⟩ <;> simp [apps, Wr.app, h1, h2, h3])

theorem relW_deq (m : Mem) (n : Nat) (hp : m.pv n = 0) : Deq m (apps (prog (.rel true n) m).1 m) n ∧
    (apps (prog (.rel true n) m).1 m).wt = if m.nx n ≠ 0 then upd m.wt (m.nx n) 0 else m.wt := by
  unfold prog freeLock
  by_cases h2 : m.nx n = 0 <;> by_cases h3 : m.tail = n <;>
    simp only [h2, h3, ne_eq, not_true_eq_false, not_false_eq_true, if_true, if_false] <;>
    refine ⟨⟨?_, ?_, ?_, ?_, ?_, ?_⟩, ?_⟩ <;> simp [apps, Wr.app, hp, h2, h3]

/-- the value of `waiting` in a new node -/
def newWt (m : Mem) (w : Bool) : Nat :=
  if m.tail = 0 ∨ (w = false ∧ m.cls m.tail = code false ∧ m.wt m.tail = 0) then 0 else 1

theorem enq_enq (m : Mem) (w : Bool) (h : m.free ≠ 0) : Enq m (apps (prog (.enq w) m).1 m) m.free w ∧
    (apps (prog (.enq w) m).1 m).wt = upd m.wt m.free (newWt m w) := by
  unfold prog newWt
  by_cases h1 : m.tail = 0
  · simp only [h, h1, ne_eq, not_true_eq_false, if_false, true_or, if_true]
    refine ⟨⟨?_, ?_, ?_, ?_, ?_, ?_⟩, ?_⟩ <;> simp [apps, Wr.app, h1]
  · simp only [h, h1, ne_eq, not_false_eq_true, if_false, false_or, if_true]
    refine ⟨⟨?_, ?_, ?_, ?_, ?_, ?_⟩, ?_⟩ <;> simp [apps, Wr.app, h1]

end Gkc.Lock
