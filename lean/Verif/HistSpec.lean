import Verif.History
/-
What a proof listing should show.  A `Step` says how a clause came about, in the terms of the
inference rules; `Step.items` is the text of the line the documentation of the output promises, with
`no c` the number of the line of clause `c`.
-/
namespace Gkc.Hist

/-- how a clause was obtained: clauses used, positions of the literals used, unit clauses which cut
literals off -/
inductive Step
  | input
  | resolve (c1 p1 c2 p2 : Nat) (cuts : List Nat)
  | instgen (c1 p1 c2 p2 : Nat) (cuts : List Nat)
  | propagate (c1 p1 c2 p2 : Nat)
  | factor (c p1 p2 : Nat) (cuts : List Nat)
  | reflex (c p1 : Nat) (cuts : List Nat)
  /-- equality literal `pe` of `eq`, used from the left side if `left`, into literal `pi` of `into` at
  the place `path % 2^16`; `given`: `eq` is the given clause -/
  | para (given : Bool) (eq pe : Nat) (left : Bool) (into pi path : Nat) (cuts : List Nat)
  | simplify (c : Nat) (cuts rews : List Nat)
  | propinst (c : Nat) (term : W) (cuts : List Nat)
  | extprop
  | arithinst (c : Nat) (subst : List (Nat × W)) (cuts : List Nat)

/-- the clauses used -/
def Step.premises : Step → List Nat
  | .input => []
  | .resolve c1 _ c2 _ cuts => c1 :: c2 :: cuts
  | .instgen c1 _ c2 _ cuts => c1 :: c2 :: cuts
  | .propagate c1 _ c2 _ => [c1, c2]
  | .factor c _ _ cuts => c :: cuts
  | .reflex c _ cuts => c :: cuts
  | .para _ eq _ _ into _ _ cuts => eq :: into :: cuts
  | .simplify c cuts rews => c :: (cuts ++ rews)
  | .propinst c _ cuts => c :: cuts
  | .extprop => []
  | .arithinst c _ cuts => c :: cuts

/-- the rule named -/
def Step.rule : Step → Rule
  | .input => .input
  | .resolve .. => .mp
  | .instgen .. => .instgen
  | .propagate .. => .fmp
  | .factor .. => .merge
  | .reflex .. => .refl
  | .para .. => .para
  | .simplify .. => .simp
  | .propinst .. => .inst
  | .extprop => .extprop
  | .arithinst .. => .arithinst

/-- a premise without position -/
def bare (no : Nat → Nat) (c : Nat) : Item := .ref (no c) [] none

/-- a premise with the position of a literal; the position 0 is left out -/
def lit (no : Nat → Nat) (c p : Nat) : Item := .ref (no c) (if p = 0 then [] else [p]) none

/-- the premises as shown -/
def Step.items (no : Nat → Nat) : Step → List Item
  | .input => []
  | .resolve c1 p1 c2 p2 cuts => lit no c1 p1 :: lit no c2 p2 :: cuts.map (bare no)
  | .instgen c1 p1 c2 p2 cuts => lit no c1 p1 :: lit no c2 p2 :: cuts.map (bare no)
  | .propagate c1 p1 c2 p2 => [lit no c1 p1, lit no c2 p2]
  | .factor c p1 p2 cuts => .ref (no c) [p1, p2] none :: cuts.map (bare no)
  | .reflex c p1 cuts => .ref (no c) [p1] none :: cuts.map (bare no)
  | .para _ eq pe left into pi path cuts =>
    (if pe = 0 ∧ left = true then .ref (no eq) [] none else .ref (no eq) [pe] (some left)) ::
    .ref (no into) [pi, path % 2 ^ 16] none :: cuts.map (bare no)
  | .simplify c cuts rews => bare no c :: (cuts.map (bare no) ++ rews.map (bare no))
  | .propinst c term cuts => bare no c :: .term term :: cuts.map (bare no)
  | .extprop => []
  | .arithinst c subst cuts => bare no c :: (subst.map (fun s => .subst s.1 s.2) ++ cuts.map (bare no))

/-- the clause shown: none for the result of the external solver -/
def Step.shows : Step → Option Nat → Option Nat
  | .extprop, _ => none
  | _, cl => cl

/-- the record made for a step; `pre` are the first five fields -/
def Step.build (pre : List W) : Step → List W
  | .input => pre
  | .resolve c1 p1 c2 p2 cuts => mkTwo 1 pre c1 p1 c2 p2 (cutVec cuts)
  | .instgen c1 p1 c2 p2 cuts => mkTwo 8 pre c1 p1 c2 p2 (cutVec cuts)
  | .propagate c1 p1 c2 p2 => mkTwo 6 pre c1 p1 c2 p2 []
  | .factor c p1 p2 cuts => mkFactor pre c p1 (some p2) (cutVec cuts)
  | .reflex c p1 cuts => mkFactor pre c p1 none (cutVec cuts)
  | .para given eq pe left into pi path cuts => paraRecord pre given eq pe into pi path left (cutVec cuts)
  | .simplify c cuts rews => mkSimplify pre c (cutVec cuts) rews
  | .propinst c term cuts => mkPropinst pre c term (cutVec cuts)
  | .extprop => mkExtprop pre
  | .arithinst c subst cuts => mkArithinst pre c subst (cutVec cuts)

/-- the history record `h` was made for step `st` -/
def Made (h : HRec) (st : Step) : Prop :=
  ∃ pre : List W, pre.length = 5 ∧ h.fields = st.build pre

/-- what the listing can show: positions below 16, at most 98 cuts, and for paramodulation into the
given clause equal positions -/
def Step.Fits : Step → Prop
  | .input => True
  | .resolve _ p1 _ p2 cuts => p1 < 16 ∧ p2 < 16 ∧ cuts.length ≤ 98
  | .instgen _ p1 _ p2 cuts => p1 < 16 ∧ p2 < 16 ∧ cuts.length ≤ 98
  | .propagate _ p1 _ p2 => p1 < 16 ∧ p2 < 16
  | .factor _ p1 p2 cuts => p1 < 16 ∧ p2 < 16 ∧ cuts.length ≤ 98
  | .reflex _ p1 cuts => p1 < 16 ∧ cuts.length ≤ 98
  | .para given _ pe _ _ pi _ cuts => pe < 16 ∧ pi < 16 ∧ cuts.length ≤ 98 ∧ (given = true ∨ pe = pi)
  | .simplify _ cuts _ => cuts.length ≤ 98
  | .propinst _ _ cuts => cuts.length ≤ 98
  | .extprop => True
  | .arithinst _ subst cuts => (1 ≤ subst.length ∧ subst.length ≤ 2) ∧ cuts.length ≤ 98 ∧ ∀ s ∈ subst, s.1 < 2 ^ 64

/-- the word behind an input record does not look like the head of an arithmetic instance -/
def QuietPast (h : HRec) (st : Step) : Prop :=
  st = .input → ∀ d, h.past 0 = .int d → tagOf d ≠ 10

/-- a clause is used, directly or not, for the last step -/
inductive Used (step : Nat → Step) (fin : Step) : Nat → Prop
  | last {c} : c ∈ fin.premises → Used step fin c
  | back {c p} : Used step fin c → p ∈ (step c).premises → Used step fin p

end Gkc.Hist
