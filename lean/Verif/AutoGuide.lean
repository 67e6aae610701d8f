import Verif.Guide
/-
The strategy that is made if none is given: make_auto_guide (Reasoner/analyze.c:1183-1345) and make_guide (Reasoner/makeguide.c), as called by
wg_run_reasoner without the special parameter for large theories, in the build for native systems.

Simplified: of each line of the text only the number of characters is kept, without the two of %d; the tables below are made from the source by a script.
-/
namespace Gkc.Ag

/-- the parameters of make_guide that are only tested for being 0. Reasoner/makeguide.c:32 -/
inductive Flag where
  | query | qp1 | qp2 | qp3 | sine | eq
deriving DecidableEq

/-- one call of sprintf: it is made if `iteration < first`, or if `iteration < below` and all the flags are on (`first` is 0 and `below`
    is 100 if the condition does not mention the iteration); `chars` is the number of characters of the format without %d -/
structure Entry where
  first : Nat
  below : Nat
  flags : List Flag
  chars : Nat

/-- Reasoner/makeguide.c:96-166 -/
def unitEq : List Entry :=
  [⟨0, 100, [], 64⟩, ⟨0, 100, [], 64⟩, ⟨0, 100, [], 131⟩, ⟨0, 100, [], 111⟩, ⟨0, 100, [], 151⟩, ⟨0, 100, [], 90⟩, ⟨0, 100, [], 90⟩,
   ⟨0, 100, [], 109⟩, ⟨0, 100, [], 110⟩, ⟨0, 4, [], 90⟩, ⟨0, 4, [], 90⟩, ⟨0, 4, [], 157⟩, ⟨0, 4, [], 137⟩, ⟨0, 4, [], 177⟩,
   ⟨0, 4, [], 116⟩, ⟨0, 4, [], 116⟩, ⟨0, 4, [], 135⟩, ⟨0, 4, [], 136⟩, ⟨0, 4, [], 85⟩, ⟨0, 4, [], 85⟩, ⟨0, 4, [], 152⟩, ⟨0, 4, [], 132⟩,
   ⟨0, 4, [], 172⟩, ⟨0, 4, [], 111⟩, ⟨0, 4, [], 111⟩, ⟨0, 4, [], 130⟩, ⟨0, 4, [], 131⟩, ⟨0, 4, [], 111⟩, ⟨0, 4, [], 111⟩, ⟨0, 4, [], 178⟩,
   ⟨0, 4, [], 158⟩, ⟨0, 4, [], 198⟩, ⟨0, 4, [], 137⟩, ⟨0, 4, [], 137⟩, ⟨0, 4, [], 156⟩, ⟨0, 4, [], 157⟩, ⟨0, 100, [], 77⟩,
   ⟨0, 100, [], 103⟩, ⟨0, 100, [], 89⟩, ⟨0, 100, [], 148⟩, ⟨0, 100, [], 149⟩, ⟨0, 100, [], 71⟩, ⟨0, 100, [], 71⟩, ⟨0, 100, [], 71⟩,
   ⟨0, 100, [], 89⟩, ⟨0, 100, [], 80⟩, ⟨0, 100, [], 80⟩, ⟨0, 100, [], 80⟩, ⟨0, 100, [], 80⟩, ⟨0, 100, [], 81⟩, ⟨0, 100, [], 75⟩,
   ⟨0, 100, [], 75⟩, ⟨0, 100, [], 75⟩, ⟨0, 100, [], 100⟩, ⟨0, 100, [], 75⟩, ⟨0, 100, [], 75⟩, ⟨0, 100, [], 76⟩, ⟨0, 100, [], 99⟩,
   ⟨0, 100, [], 94⟩, ⟨0, 100, [], 107⟩, ⟨0, 100, [], 104⟩, ⟨0, 100, [], 120⟩, ⟨0, 100, [], 100⟩, ⟨0, 100, [], 125⟩, ⟨0, 100, [], 122⟩,
   ⟨0, 100, [], 115⟩]

/-- Reasoner/makeguide.c:168-184 -/
def unitEqMore : List Entry :=
  [⟨0, 100, [], 74⟩, ⟨0, 100, [], 87⟩, ⟨0, 100, [], 99⟩, ⟨0, 100, [], 74⟩, ⟨0, 100, [], 74⟩, ⟨0, 100, [], 74⟩, ⟨0, 3, [], 74⟩,
   ⟨0, 3, [], 74⟩, ⟨0, 3, [], 74⟩, ⟨0, 3, [], 74⟩, ⟨0, 3, [], 74⟩, ⟨0, 3, [], 74⟩, ⟨0, 100, [], 94⟩, ⟨0, 100, [], 141⟩, ⟨0, 100, [], 112⟩]

/-- Reasoner/makeguide.c:192-240 -/
def plain0 : List Entry :=
  [⟨0, 100, [], 71⟩, ⟨0, 100, [], 71⟩, ⟨0, 100, [], 141⟩, ⟨0, 100, [], 62⟩, ⟨0, 100, [], 75⟩, ⟨0, 100, [], 112⟩, ⟨0, 4, [], 99⟩,
   ⟨0, 4, [], 99⟩, ⟨0, 4, [], 141⟩, ⟨0, 4, [], 90⟩, ⟨0, 4, [], 140⟩, ⟨0, 4, [], 132⟩, ⟨0, 100, [.qp1], 62⟩, ⟨0, 100, [.qp1], 71⟩,
   ⟨0, 100, [], 95⟩, ⟨0, 4, [.query, .qp1], 69⟩, ⟨0, 4, [.query, .qp2], 69⟩, ⟨0, 4, [.query], 77⟩, ⟨0, 4, [.query], 86⟩,
   ⟨0, 4, [.query, .qp1], 77⟩, ⟨0, 4, [.query, .qp1], 90⟩, ⟨0, 4, [.query, .qp1], 135⟩, ⟨0, 4, [.query, .qp2], 77⟩,
   ⟨0, 4, [.query, .qp1, .sine], 87⟩, ⟨0, 4, [.query, .qp1], 79⟩, ⟨0, 4, [.sine], 81⟩, ⟨0, 4, [], 139⟩, ⟨0, 4, [], 92⟩, ⟨0, 4, [], 92⟩,
   ⟨0, 4, [], 93⟩, ⟨0, 4, [], 161⟩, ⟨0, 4, [.qp2, .sine], 135⟩, ⟨0, 4, [], 71⟩, ⟨0, 4, [.query, .qp1], 90⟩, ⟨0, 4, [.qp1, .sine], 81⟩,
   ⟨0, 4, [.query, .qp1], 86⟩, ⟨0, 4, [], 127⟩, ⟨0, 4, [.qp1], 86⟩, ⟨0, 4, [.sine], 72⟩, ⟨0, 4, [.sine], 72⟩, ⟨0, 4, [.query, .qp3], 69⟩,
   ⟨0, 4, [.query, .qp1], 108⟩, ⟨0, 4, [.qp1], 110⟩, ⟨0, 4, [], 122⟩, ⟨0, 4, [], 86⟩, ⟨0, 4, [], 88⟩, ⟨0, 4, [.query, .qp1], 118⟩]

/-- Reasoner/makeguide.c:243-289 -/
def plain1 : List Entry :=
  [⟨0, 100, [], 71⟩, ⟨0, 4, [], 81⟩, ⟨0, 4, [], 99⟩, ⟨0, 4, [], 99⟩, ⟨0, 4, [], 141⟩, ⟨0, 4, [], 90⟩, ⟨0, 4, [], 140⟩, ⟨0, 4, [], 132⟩,
   ⟨0, 100, [.qp1], 71⟩, ⟨0, 100, [.query, .qp1], 69⟩, ⟨0, 100, [.query, .qp1], 135⟩, ⟨0, 100, [.query, .qp1], 79⟩, ⟨0, 100, [], 62⟩,
   ⟨0, 100, [.qp1], 62⟩, ⟨0, 100, [], 139⟩, ⟨0, 100, [], 93⟩, ⟨0, 100, [], 161⟩, ⟨0, 100, [.qp2, .sine], 135⟩, ⟨0, 100, [], 71⟩,
   ⟨0, 100, [], 127⟩, ⟨0, 100, [.query, .qp1], 108⟩, ⟨0, 100, [.qp1], 110⟩, ⟨0, 100, [], 122⟩, ⟨0, 100, [.query, .qp1], 118⟩,
   ⟨0, 100, [], 75⟩, ⟨0, 100, [], 71⟩, ⟨0, 4, [.query, .qp2], 69⟩, ⟨0, 4, [.query], 77⟩, ⟨0, 4, [.query], 86⟩, ⟨0, 4, [.query, .qp1], 77⟩,
   ⟨0, 4, [.query, .qp1], 90⟩, ⟨0, 4, [.query, .qp2], 77⟩, ⟨0, 4, [.query, .qp1, .sine], 87⟩, ⟨0, 4, [.sine], 81⟩, ⟨0, 4, [], 92⟩,
   ⟨0, 4, [.query, .qp1], 90⟩, ⟨0, 4, [.qp1, .sine], 81⟩, ⟨0, 4, [.query, .qp1], 86⟩, ⟨0, 4, [.qp1], 86⟩, ⟨0, 4, [.sine], 72⟩,
   ⟨0, 4, [.query, .qp3], 69⟩, ⟨0, 4, [], 86⟩, ⟨0, 4, [], 88⟩, ⟨0, 4, [], 141⟩]

/-- Reasoner/makeguide.c:292-346 -/
def plain2 : List Entry :=
  [⟨0, 100, [], 71⟩, ⟨0, 3, [], 81⟩, ⟨0, 3, [], 81⟩, ⟨0, 3, [], 72⟩, ⟨0, 4, [], 99⟩, ⟨0, 4, [], 99⟩, ⟨0, 4, [], 141⟩, ⟨0, 4, [], 90⟩,
   ⟨0, 4, [], 140⟩, ⟨0, 5, [], 132⟩, ⟨2, 100, [.query, .qp1], 69⟩, ⟨2, 100, [.query], 86⟩, ⟨2, 100, [.sine], 81⟩, ⟨0, 100, [], 71⟩,
   ⟨2, 100, [.qp1], 71⟩, ⟨0, 100, [], 92⟩, ⟨2, 100, [.query, .qp1], 90⟩, ⟨2, 100, [.qp1], 86⟩, ⟨2, 100, [.query, .qp2], 69⟩,
   ⟨2, 100, [.query], 77⟩, ⟨0, 100, [], 62⟩, ⟨2, 100, [.qp2], 62⟩, ⟨0, 100, [], 112⟩, ⟨0, 4, [.qp1], 71⟩, ⟨2, 4, [.qp1, .sine], 81⟩,
   ⟨2, 4, [.qp1, .sine], 81⟩, ⟨2, 4, [.qp2, .sine], 81⟩, ⟨2, 4, [.qp1, .sine], 81⟩, ⟨2, 4, [.qp1, .sine], 81⟩, ⟨2, 4, [.query, .qp1], 77⟩,
   ⟨2, 4, [.query, .qp1], 90⟩, ⟨2, 4, [.query, .qp1], 135⟩, ⟨2, 4, [.query, .qp2], 77⟩, ⟨2, 4, [.query, .qp1, .sine], 87⟩,
   ⟨2, 4, [.query, .qp1], 79⟩, ⟨2, 4, [.qp1], 62⟩, ⟨2, 4, [.query, .qp1], 117⟩, ⟨2, 4, [], 139⟩, ⟨2, 4, [], 93⟩, ⟨2, 4, [], 161⟩,
   ⟨2, 4, [.qp2, .sine], 150⟩, ⟨2, 4, [], 71⟩, ⟨2, 4, [.query, .qp1], 86⟩, ⟨0, 4, [], 127⟩, ⟨2, 4, [.sine], 72⟩, ⟨2, 4, [.sine], 87⟩,
   ⟨2, 4, [.query, .qp3], 69⟩, ⟨2, 4, [.query, .qp1], 108⟩, ⟨2, 4, [.qp1], 110⟩, ⟨0, 4, [], 141⟩, ⟨0, 4, [], 122⟩,
   ⟨2, 4, [.query, .qp1], 118⟩]

/-- Reasoner/makeguide.c:349-400 -/
def plain3 : List Entry :=
  [⟨0, 4, [], 99⟩, ⟨0, 4, [], 99⟩, ⟨0, 4, [], 141⟩, ⟨0, 4, [], 90⟩, ⟨0, 4, [], 140⟩, ⟨0, 4, [], 132⟩, ⟨0, 4, [], 81⟩, ⟨0, 4, [], 81⟩,
   ⟨0, 4, [], 72⟩, ⟨2, 100, [.query, .qp2], 69⟩, ⟨2, 100, [.query, .qp1], 69⟩, ⟨2, 100, [.query], 77⟩, ⟨2, 100, [.query, .qp1], 90⟩,
   ⟨2, 100, [.query, .qp1], 77⟩, ⟨2, 100, [.query], 86⟩, ⟨2, 100, [.query, .qp2], 77⟩, ⟨2, 100, [.query, .qp3], 69⟩, ⟨0, 100, [], 71⟩,
   ⟨2, 100, [.qp1], 71⟩, ⟨2, 100, [.qp1], 71⟩, ⟨2, 100, [.qp1, .sine], 81⟩, ⟨2, 100, [.qp2, .sine], 81⟩, ⟨0, 100, [], 71⟩,
   ⟨2, 4, [.query, .qp1], 135⟩, ⟨2, 4, [.query, .qp1, .sine], 87⟩, ⟨2, 4, [.query, .qp1], 79⟩, ⟨2, 4, [], 62⟩, ⟨2, 4, [.sine], 81⟩,
   ⟨2, 4, [.qp1], 62⟩, ⟨2, 4, [.qp2], 71⟩, ⟨0, 4, [], 139⟩, ⟨0, 4, [], 92⟩, ⟨0, 4, [], 93⟩, ⟨0, 4, [], 161⟩, ⟨0, 4, [.qp2, .sine], 150⟩,
   ⟨0, 4, [], 71⟩, ⟨0, 4, [.query, .qp1], 90⟩, ⟨0, 4, [.qp1, .sine], 81⟩, ⟨0, 4, [.query, .qp1], 86⟩, ⟨0, 4, [], 127⟩, ⟨0, 4, [.qp1], 86⟩,
   ⟨0, 4, [.sine], 72⟩, ⟨0, 4, [.sine], 87⟩, ⟨0, 4, [.query, .qp1], 108⟩, ⟨0, 4, [.qp1], 110⟩, ⟨0, 4, [], 141⟩, ⟨0, 4, [], 122⟩,
   ⟨0, 4, [.query, .qp1], 118⟩]

/-- Reasoner/makeguide.c:403-442 -/
def plain4 : List Entry :=
  [⟨0, 100, [.query], 77⟩, ⟨0, 100, [.query, .qp1], 77⟩, ⟨0, 100, [.query, .qp1, .sine], 87⟩, ⟨0, 100, [.query, .qp1], 69⟩,
   ⟨0, 100, [.query, .qp2], 69⟩, ⟨0, 100, [.query, .qp2], 77⟩, ⟨0, 100, [.qp1, .sine], 81⟩, ⟨0, 100, [.query, .qp1], 86⟩,
   ⟨0, 100, [.sine], 72⟩, ⟨0, 3, [.sine], 81⟩, ⟨0, 3, [], 81⟩, ⟨0, 100, [.sine], 87⟩, ⟨0, 100, [.qp2, .sine], 81⟩, ⟨0, 4, [], 71⟩,
   ⟨0, 4, [], 71⟩, ⟨0, 4, [.query], 86⟩, ⟨0, 4, [.qp1], 71⟩, ⟨0, 4, [.query, .qp1], 90⟩, ⟨0, 4, [.query, .qp1], 135⟩,
   ⟨0, 4, [.query, .qp1], 79⟩, ⟨0, 4, [], 62⟩, ⟨0, 4, [.sine], 81⟩, ⟨0, 4, [.qp1], 62⟩, ⟨0, 4, [], 139⟩, ⟨0, 4, [], 92⟩, ⟨0, 4, [], 93⟩,
   ⟨0, 4, [], 161⟩, ⟨0, 4, [.qp2, .sine], 150⟩, ⟨0, 4, [], 71⟩, ⟨0, 4, [.query, .qp1], 90⟩, ⟨0, 4, [], 127⟩, ⟨0, 4, [.qp1], 86⟩,
   ⟨0, 4, [.query, .qp3], 69⟩, ⟨0, 4, [.query, .qp1], 108⟩, ⟨0, 4, [.qp1], 110⟩, ⟨0, 4, [], 141⟩, ⟨0, 4, [], 122⟩,
   ⟨0, 4, [.query, .qp1], 118⟩]

/-- Reasoner/makeguide.c:448-563 -/
def equal0 : List Entry :=
  [⟨0, 100, [], 71⟩, ⟨0, 100, [], 141⟩, ⟨0, 4, [], 97⟩, ⟨0, 100, [.qp1], 110⟩, ⟨0, 4, [], 88⟩, ⟨0, 4, [], 118⟩, ⟨0, 4, [], 109⟩,
   ⟨0, 4, [], 118⟩, ⟨0, 4, [], 141⟩, ⟨0, 4, [], 132⟩, ⟨0, 100, [], 71⟩, ⟨0, 100, [], 62⟩, ⟨0, 100, [], 86⟩, ⟨0, 4, [], 75⟩,
   ⟨0, 4, [.query, .qp1], 69⟩, ⟨0, 4, [.qp1], 71⟩, ⟨0, 4, [.query, .qp1], 77⟩, ⟨0, 4, [.qp1], 86⟩, ⟨0, 4, [.qp1], 62⟩, ⟨0, 4, [.qp1], 138⟩,
   ⟨0, 4, [.query, .qp3], 69⟩, ⟨0, 4, [.qp1], 71⟩, ⟨0, 4, [.query, .qp1], 90⟩, ⟨0, 4, [.eq], 140⟩, ⟨0, 4, [.query], 77⟩,
   ⟨0, 4, [.qp1], 86⟩, ⟨0, 4, [.query, .qp2], 69⟩, ⟨0, 4, [], 138⟩, ⟨0, 4, [.qp1, .sine], 81⟩, ⟨0, 4, [.query, .qp1, .sine], 136⟩,
   ⟨0, 4, [.sine], 81⟩, ⟨0, 4, [.query], 86⟩, ⟨0, 4, [.query, .qp1], 90⟩, ⟨0, 4, [.qp1, .sine], 81⟩, ⟨0, 4, [], 83⟩, ⟨0, 4, [], 139⟩,
   ⟨0, 4, [.eq, .query, .qp1], 82⟩, ⟨0, 4, [.query, .qp1, .sine], 79⟩, ⟨0, 4, [.sine], 72⟩, ⟨0, 4, [.query, .qp1], 135⟩, ⟨0, 4, [.eq], 84⟩,
   ⟨0, 4, [], 71⟩, ⟨0, 4, [], 86⟩, ⟨0, 4, [], 138⟩, ⟨0, 4, [.query, .qp2], 77⟩, ⟨0, 4, [], 122⟩, ⟨0, 4, [], 117⟩, ⟨0, 4, [.qp1], 93⟩,
   ⟨0, 4, [], 86⟩, ⟨0, 4, [.query, .qp1], 132⟩, ⟨0, 4, [.qp1], 143⟩, ⟨0, 4, [], 95⟩, ⟨0, 4, [], 75⟩, ⟨0, 4, [], 86⟩,
   ⟨0, 4, [.qp2, .sine], 113⟩, ⟨0, 4, [.qp2, .sine], 135⟩, ⟨0, 4, [.query, .qp1], 79⟩, ⟨0, 4, [.sine], 102⟩,
   ⟨0, 4, [.query, .qp2, .sine], 79⟩, ⟨0, 4, [.query, .sine], 87⟩, ⟨0, 4, [.qp2], 91⟩, ⟨0, 4, [.sine], 136⟩, ⟨0, 4, [.eq], 75⟩,
   ⟨0, 4, [.sine], 81⟩, ⟨0, 4, [.qp2], 123⟩, ⟨0, 4, [.qp1], 98⟩, ⟨0, 4, [.qp1], 77⟩, ⟨0, 4, [], 93⟩, ⟨0, 4, [.query, .qp1], 108⟩,
   ⟨0, 4, [.query, .qp1, .sine], 79⟩, ⟨0, 4, [], 132⟩, ⟨0, 4, [], 100⟩, ⟨0, 4, [.eq, .query], 165⟩, ⟨0, 4, [], 86⟩, ⟨0, 4, [.sine], 148⟩,
   ⟨0, 4, [.query, .qp1], 86⟩, ⟨0, 4, [.eq], 182⟩, ⟨0, 4, [.query, .qp1, .sine], 154⟩, ⟨0, 4, [], 113⟩, ⟨0, 4, [], 98⟩, ⟨0, 4, [], 128⟩,
   ⟨0, 4, [.eq, .query, .qp1], 164⟩, ⟨0, 4, [], 112⟩, ⟨0, 4, [.eq, .query, .qp1, .sine], 114⟩, ⟨0, 4, [], 139⟩, ⟨0, 4, [.qp1], 140⟩,
   ⟨0, 4, [.qp1], 163⟩, ⟨0, 4, [.qp1], 86⟩, ⟨0, 4, [.qp1, .sine], 96⟩, ⟨0, 4, [.eq, .qp1], 85⟩, ⟨0, 4, [], 92⟩, ⟨0, 4, [], 95⟩,
   ⟨0, 4, [], 112⟩, ⟨0, 4, [], 140⟩, ⟨0, 4, [.qp1], 110⟩, ⟨0, 4, [.query, .qp1], 126⟩, ⟨0, 4, [.query, .qp1], 153⟩, ⟨0, 4, [.qp1], 117⟩,
   ⟨0, 4, [.eq, .query, .qp1], 114⟩, ⟨0, 4, [.query, .qp1], 183⟩, ⟨0, 4, [.eq, .sine], 155⟩, ⟨0, 4, [.qp1], 76⟩,
   ⟨0, 4, [.qp1, .sine], 133⟩, ⟨0, 4, [.query, .qp1], 138⟩, ⟨0, 4, [], 77⟩, ⟨0, 4, [.eq, .qp2, .sine], 129⟩,
   ⟨0, 4, [.eq, .query, .qp1, .sine], 180⟩, ⟨0, 4, [.qp1], 108⟩, ⟨0, 4, [.sine], 72⟩, ⟨0, 4, [.eq], 138⟩, ⟨0, 4, [.qp2, .sine], 101⟩]

/-- Reasoner/makeguide.c:566-696 -/
def equal1 : List Entry :=
  [⟨0, 100, [.qp1], 62⟩, ⟨0, 100, [.query, .qp1], 69⟩, ⟨0, 100, [.qp1], 71⟩, ⟨0, 3, [.qp1], 81⟩, ⟨0, 4, [], 97⟩, ⟨0, 4, [], 88⟩,
   ⟨0, 4, [], 88⟩, ⟨0, 4, [], 132⟩, ⟨0, 4, [], 141⟩, ⟨0, 100, [], 62⟩, ⟨0, 100, [], 71⟩, ⟨0, 100, [.qp1], 71⟩, ⟨0, 4, [.qp1], 118⟩,
   ⟨0, 4, [.qp1], 92⟩, ⟨0, 4, [], 118⟩, ⟨0, 100, [], 141⟩, ⟨0, 100, [.query, .qp1], 135⟩, ⟨0, 100, [], 71⟩, ⟨0, 100, [], 86⟩,
   ⟨0, 100, [], 122⟩, ⟨0, 100, [], 117⟩, ⟨0, 100, [], 95⟩, ⟨0, 100, [.qp2, .sine], 135⟩, ⟨0, 100, [.query, .qp1], 79⟩,
   ⟨0, 100, [.qp1], 86⟩, ⟨0, 100, [], 83⟩, ⟨0, 100, [], 139⟩, ⟨0, 100, [.qp1], 110⟩, ⟨0, 4, [.qp1], 136⟩, ⟨0, 100, [.qp2, .sine], 113⟩,
   ⟨0, 100, [.sine], 136⟩, ⟨0, 100, [.eq], 75⟩, ⟨0, 100, [.sine], 81⟩, ⟨0, 4, [.query, .qp1], 108⟩, ⟨0, 4, [.eq, .query], 165⟩,
   ⟨0, 4, [], 86⟩, ⟨0, 4, [.query, .qp1, .sine], 154⟩, ⟨0, 4, [.eq, .query, .qp1], 164⟩, ⟨0, 4, [], 112⟩, ⟨0, 4, [.eq, .qp1], 85⟩,
   ⟨0, 4, [], 95⟩, ⟨0, 4, [], 112⟩, ⟨0, 4, [.query, .qp1], 153⟩, ⟨0, 4, [], 77⟩, ⟨0, 4, [.qp1], 125⟩, ⟨0, 4, [], 71⟩,
   ⟨0, 4, [.query, .qp1], 77⟩, ⟨0, 4, [.qp1], 86⟩, ⟨0, 4, [.qp1], 96⟩, ⟨0, 4, [.qp1], 138⟩, ⟨0, 4, [.query, .qp3], 69⟩,
   ⟨0, 4, [.query, .qp1], 90⟩, ⟨0, 4, [.eq], 140⟩, ⟨0, 4, [.query], 77⟩, ⟨0, 4, [.query, .qp2], 69⟩, ⟨0, 4, [], 138⟩,
   ⟨0, 4, [.qp1, .sine], 81⟩, ⟨0, 4, [.query, .qp1, .sine], 136⟩, ⟨0, 4, [.sine], 81⟩, ⟨0, 4, [.query], 86⟩, ⟨0, 4, [.query, .qp1], 90⟩,
   ⟨0, 4, [.qp1, .sine], 81⟩, ⟨0, 4, [.eq, .query, .qp1], 82⟩, ⟨0, 4, [.query, .qp1, .sine], 79⟩, ⟨0, 4, [.sine], 72⟩, ⟨0, 4, [.eq], 84⟩,
   ⟨0, 4, [], 138⟩, ⟨0, 4, [.query, .qp2], 77⟩, ⟨0, 4, [.qp1], 93⟩, ⟨0, 4, [], 86⟩, ⟨0, 4, [.query, .qp1], 132⟩, ⟨0, 4, [.qp1], 143⟩,
   ⟨0, 4, [], 75⟩, ⟨0, 4, [], 86⟩, ⟨0, 4, [.sine], 102⟩, ⟨0, 4, [.query, .qp2, .sine], 79⟩, ⟨0, 4, [.query, .sine], 87⟩,
   ⟨0, 4, [.qp2], 91⟩, ⟨0, 4, [.qp2], 123⟩, ⟨0, 4, [.qp1], 98⟩, ⟨0, 4, [.qp1], 77⟩, ⟨0, 4, [], 93⟩, ⟨0, 4, [], 119⟩,
   ⟨0, 4, [.query, .qp1, .sine], 79⟩, ⟨0, 4, [], 132⟩, ⟨0, 4, [], 100⟩, ⟨0, 4, [.sine], 148⟩, ⟨0, 4, [.query, .qp1], 86⟩,
   ⟨0, 4, [.eq], 182⟩, ⟨0, 4, [], 113⟩, ⟨0, 4, [], 98⟩, ⟨0, 4, [], 128⟩, ⟨0, 4, [.eq, .query, .qp1, .sine], 114⟩, ⟨0, 4, [], 139⟩,
   ⟨0, 4, [.qp1], 140⟩, ⟨0, 4, [.qp1], 163⟩, ⟨0, 4, [.qp1], 86⟩, ⟨0, 4, [.qp1, .sine], 96⟩, ⟨0, 4, [], 92⟩, ⟨0, 5, [], 92⟩,
   ⟨0, 4, [], 140⟩, ⟨0, 4, [], 166⟩, ⟨0, 4, [.qp1], 110⟩, ⟨0, 4, [.query, .qp1], 126⟩, ⟨0, 4, [.qp1], 117⟩,
   ⟨0, 4, [.eq, .query, .qp1], 114⟩, ⟨0, 4, [.query, .qp1], 183⟩, ⟨0, 4, [.eq, .sine], 155⟩, ⟨0, 4, [.qp1], 76⟩,
   ⟨0, 4, [.qp1, .sine], 133⟩, ⟨0, 4, [.query, .qp1], 138⟩, ⟨0, 4, [.eq, .qp2, .sine], 129⟩, ⟨0, 4, [.eq, .query, .qp1, .sine], 180⟩,
   ⟨0, 4, [.qp1], 108⟩, ⟨0, 4, [.sine], 72⟩, ⟨0, 4, [.eq], 138⟩, ⟨0, 4, [.qp2, .sine], 101⟩]

/-- Reasoner/makeguide.c:699-844 -/
def equal2 : List Entry :=
  [⟨0, 100, [], 71⟩, ⟨0, 4, [], 81⟩, ⟨0, 4, [], 81⟩, ⟨0, 4, [], 81⟩, ⟨0, 4, [], 97⟩, ⟨0, 4, [], 88⟩, ⟨0, 4, [], 88⟩, ⟨0, 4, [], 97⟩,
   ⟨0, 4, [], 109⟩, ⟨0, 4, [], 118⟩, ⟨0, 4, [], 132⟩, ⟨0, 4, [], 141⟩, ⟨0, 100, [.qp1], 138⟩, ⟨0, 100, [.qp1], 71⟩,
   ⟨0, 100, [.query, .qp1], 69⟩, ⟨0, 100, [.query, .qp1], 90⟩, ⟨0, 100, [], 71⟩, ⟨0, 100, [.query, .qp3], 69⟩, ⟨0, 100, [.qp1], 86⟩,
   ⟨0, 100, [], 138⟩, ⟨0, 4, [], 148⟩, ⟨0, 3, [], 164⟩, ⟨0, 100, [.sine], 81⟩, ⟨0, 100, [], 62⟩, ⟨0, 100, [.query], 86⟩,
   ⟨0, 100, [.query, .qp1, .sine], 79⟩, ⟨0, 100, [.sine], 72⟩, ⟨0, 100, [], 83⟩, ⟨0, 100, [], 139⟩, ⟨0, 100, [.eq], 84⟩,
   ⟨0, 4, [.eq], 105⟩, ⟨0, 100, [], 138⟩, ⟨0, 100, [.qp1], 93⟩, ⟨0, 100, [], 86⟩, ⟨0, 100, [.query, .qp1], 132⟩, ⟨0, 100, [.qp1], 143⟩,
   ⟨0, 100, [], 86⟩, ⟨0, 100, [.qp1, .sine], 81⟩, ⟨0, 100, [.qp2, .sine], 113⟩, ⟨0, 4, [.eq, .query, .qp1], 179⟩, ⟨0, 4, [.qp2], 123⟩,
   ⟨0, 4, [.qp2], 149⟩, ⟨0, 4, [.qp1], 98⟩, ⟨0, 100, [.qp1], 77⟩, ⟨0, 4, [], 93⟩, ⟨0, 4, [], 132⟩, ⟨0, 4, [], 143⟩,
   ⟨0, 4, [.query, .qp1], 86⟩, ⟨0, 4, [.eq], 182⟩, ⟨0, 4, [], 113⟩, ⟨0, 4, [], 98⟩, ⟨0, 4, [], 128⟩, ⟨0, 4, [.qp1], 86⟩, ⟨0, 4, [], 92⟩,
   ⟨0, 4, [], 102⟩, ⟨0, 4, [.qp1], 92⟩, ⟨0, 4, [.query, .qp1], 117⟩, ⟨0, 4, [], 140⟩, ⟨0, 4, [], 155⟩, ⟨0, 4, [.qp1], 117⟩,
   ⟨0, 4, [.qp1], 127⟩, ⟨0, 4, [.eq, .query, .qp1], 114⟩, ⟨0, 4, [.eq, .sine], 155⟩, ⟨0, 4, [.qp1, .sine], 133⟩,
   ⟨0, 4, [.query, .qp1], 138⟩, ⟨0, 4, [.qp1], 108⟩, ⟨0, 4, [.sine], 72⟩, ⟨0, 4, [.eq], 138⟩, ⟨0, 4, [.query, .qp1], 77⟩,
   ⟨0, 4, [.qp1], 86⟩, ⟨0, 4, [.qp1], 62⟩, ⟨0, 4, [.qp1], 71⟩, ⟨0, 4, [.eq], 140⟩, ⟨0, 4, [.query], 77⟩, ⟨0, 4, [.query, .qp2], 69⟩,
   ⟨0, 4, [], 141⟩, ⟨0, 4, [.qp1, .sine], 81⟩, ⟨0, 4, [.query, .qp1, .sine], 136⟩, ⟨0, 4, [.query, .qp1], 90⟩,
   ⟨0, 4, [.eq, .query, .qp1], 82⟩, ⟨0, 4, [.query, .qp1], 135⟩, ⟨0, 4, [], 71⟩, ⟨0, 4, [], 86⟩, ⟨0, 4, [], 96⟩, ⟨0, 4, [.qp1], 110⟩,
   ⟨0, 4, [.query, .qp2], 77⟩, ⟨0, 4, [], 122⟩, ⟨0, 4, [], 117⟩, ⟨0, 4, [], 95⟩, ⟨0, 4, [], 75⟩, ⟨0, 4, [.qp2, .sine], 135⟩,
   ⟨0, 4, [.qp2, .sine], 150⟩, ⟨0, 4, [.query, .qp1], 79⟩, ⟨0, 4, [.sine], 102⟩, ⟨0, 4, [.query, .qp2, .sine], 79⟩,
   ⟨0, 4, [.query, .sine], 87⟩, ⟨0, 4, [.qp2], 91⟩, ⟨0, 4, [.sine], 136⟩, ⟨0, 4, [.eq], 75⟩, ⟨0, 4, [.sine], 81⟩,
   ⟨0, 4, [.query, .qp1], 108⟩, ⟨0, 4, [.query, .qp1, .sine], 79⟩, ⟨0, 4, [], 100⟩, ⟨0, 4, [.eq, .query], 165⟩, ⟨0, 4, [], 86⟩,
   ⟨0, 4, [.sine], 148⟩, ⟨0, 4, [.query, .qp1, .sine], 154⟩, ⟨0, 4, [.eq, .query, .qp1], 164⟩, ⟨0, 4, [], 112⟩,
   ⟨0, 4, [.eq, .query, .qp1, .sine], 114⟩, ⟨0, 4, [], 139⟩, ⟨0, 4, [.qp1], 140⟩, ⟨0, 4, [.qp1], 163⟩, ⟨0, 4, [.qp1, .sine], 96⟩,
   ⟨0, 4, [.eq, .qp1], 85⟩, ⟨0, 4, [], 95⟩, ⟨0, 4, [], 112⟩, ⟨0, 4, [.qp1], 110⟩, ⟨0, 4, [.query, .qp1], 126⟩, ⟨0, 4, [.query, .qp1], 153⟩,
   ⟨0, 4, [.query, .qp1], 183⟩, ⟨0, 4, [.qp1], 76⟩, ⟨0, 4, [], 77⟩, ⟨0, 4, [.eq, .qp2, .sine], 129⟩,
   ⟨0, 4, [.eq, .query, .qp1, .sine], 180⟩, ⟨0, 4, [.qp2, .sine], 101⟩]

/-- Reasoner/makeguide.c:847-970 -/
def equal3 : List Entry :=
  [⟨0, 100, [.qp1], 86⟩, ⟨0, 100, [.query, .qp1], 77⟩, ⟨0, 100, [.eq], 140⟩, ⟨0, 100, [.query, .qp1], 69⟩, ⟨0, 100, [.qp1, .sine], 81⟩,
   ⟨0, 4, [], 81⟩, ⟨0, 4, [], 88⟩, ⟨0, 4, [], 97⟩, ⟨0, 100, [.query, .qp1, .sine], 136⟩, ⟨0, 100, [.qp1], 71⟩,
   ⟨0, 100, [.query, .qp1], 90⟩, ⟨0, 5, [.query, .qp1], 116⟩, ⟨0, 4, [], 109⟩, ⟨0, 4, [], 109⟩, ⟨0, 4, [], 118⟩, ⟨0, 4, [], 132⟩,
   ⟨0, 4, [], 141⟩, ⟨0, 4, [], 141⟩, ⟨0, 100, [.eq, .query, .qp1], 82⟩, ⟨0, 100, [.qp1], 71⟩, ⟨0, 100, [.query, .qp3], 69⟩,
   ⟨0, 100, [], 62⟩, ⟨0, 100, [.query], 77⟩, ⟨0, 100, [.query, .qp2], 69⟩, ⟨0, 100, [.qp1, .sine], 81⟩, ⟨0, 100, [.query, .qp2], 77⟩,
   ⟨0, 100, [.sine], 102⟩, ⟨0, 4, [.query, .qp1, .sine], 79⟩, ⟨0, 4, [], 100⟩, ⟨0, 4, [.eq, .query, .qp1, .sine], 114⟩, ⟨0, 4, [], 139⟩,
   ⟨0, 4, [.qp1], 140⟩, ⟨0, 4, [.qp1], 163⟩, ⟨0, 4, [.qp1, .sine], 96⟩, ⟨0, 4, [.qp1], 110⟩, ⟨0, 4, [.query, .qp1], 126⟩,
   ⟨0, 4, [.query, .qp1], 183⟩, ⟨0, 4, [.qp1], 76⟩, ⟨0, 4, [.eq, .query, .qp1, .sine], 180⟩, ⟨0, 4, [], 71⟩, ⟨0, 4, [], 71⟩,
   ⟨0, 4, [.qp1], 62⟩, ⟨0, 4, [.qp1], 138⟩, ⟨0, 4, [.query, .qp1], 90⟩, ⟨0, 4, [.qp1], 86⟩, ⟨0, 4, [], 141⟩, ⟨0, 4, [], 138⟩,
   ⟨0, 4, [.sine], 81⟩, ⟨0, 4, [.query], 86⟩, ⟨0, 4, [], 83⟩, ⟨0, 4, [], 139⟩, ⟨0, 4, [.query, .qp1, .sine], 79⟩, ⟨0, 4, [.sine], 72⟩,
   ⟨0, 4, [.query, .qp1], 135⟩, ⟨0, 4, [.eq], 84⟩, ⟨0, 4, [], 71⟩, ⟨0, 4, [], 86⟩, ⟨0, 4, [], 138⟩, ⟨0, 4, [.qp1], 110⟩, ⟨0, 4, [], 122⟩,
   ⟨0, 4, [], 117⟩, ⟨0, 4, [.qp1], 93⟩, ⟨0, 4, [], 86⟩, ⟨0, 4, [.query, .qp1], 132⟩, ⟨0, 4, [.qp1], 143⟩, ⟨0, 4, [], 95⟩, ⟨0, 4, [], 75⟩,
   ⟨0, 4, [], 86⟩, ⟨0, 4, [.qp2, .sine], 113⟩, ⟨0, 4, [.qp2, .sine], 135⟩, ⟨0, 4, [.query, .qp1], 79⟩, ⟨0, 4, [.query, .qp2, .sine], 79⟩,
   ⟨0, 4, [.query, .sine], 87⟩, ⟨0, 4, [.qp2], 91⟩, ⟨0, 4, [.sine], 136⟩, ⟨0, 4, [.eq], 75⟩, ⟨0, 4, [.sine], 81⟩, ⟨0, 4, [.qp2], 123⟩,
   ⟨0, 4, [.qp1], 98⟩, ⟨0, 4, [.qp1], 77⟩, ⟨0, 4, [], 93⟩, ⟨0, 4, [.query, .qp1], 108⟩, ⟨0, 4, [], 132⟩, ⟨0, 4, [.eq, .query], 165⟩,
   ⟨0, 4, [], 86⟩, ⟨0, 4, [.sine], 148⟩, ⟨0, 4, [.query, .qp1], 86⟩, ⟨0, 4, [.eq], 182⟩, ⟨0, 4, [.query, .qp1, .sine], 154⟩,
   ⟨0, 4, [], 113⟩, ⟨0, 4, [.query, .qp1, .sine], 154⟩, ⟨0, 4, [.query, .qp1, .sine], 180⟩, ⟨0, 4, [], 98⟩, ⟨0, 4, [], 128⟩,
   ⟨0, 4, [.eq, .query, .qp1], 164⟩, ⟨0, 5, [], 112⟩, ⟨0, 4, [.qp1], 86⟩, ⟨0, 4, [.eq, .qp1], 85⟩, ⟨0, 4, [], 92⟩, ⟨0, 4, [.qp1], 92⟩,
   ⟨0, 4, [], 95⟩, ⟨0, 4, [], 112⟩, ⟨0, 4, [], 140⟩, ⟨0, 4, [.query, .qp1], 153⟩, ⟨0, 4, [.qp1], 117⟩, ⟨0, 4, [.eq, .query, .qp1], 114⟩,
   ⟨0, 4, [.eq, .sine], 155⟩, ⟨0, 4, [.qp1, .sine], 133⟩, ⟨0, 4, [.query, .qp1], 138⟩, ⟨0, 4, [], 77⟩, ⟨0, 4, [.eq, .qp2, .sine], 129⟩,
   ⟨0, 4, [.qp1], 108⟩, ⟨0, 4, [.sine], 72⟩, ⟨0, 4, [.query, .qp1, .sine], 127⟩, ⟨0, 4, [.eq], 138⟩, ⟨0, 4, [.qp2, .sine], 101⟩]

/-- Reasoner/makeguide.c:973-1090 -/
def equal4 : List Entry :=
  [⟨0, 100, [.query, .qp1], 77⟩, ⟨0, 100, [.query], 77⟩, ⟨0, 100, [.query, .qp2], 69⟩, ⟨0, 100, [], 75⟩,
   ⟨0, 100, [.query, .qp2, .sine], 79⟩, ⟨0, 4, [.query, .qp2, .sine], 79⟩, ⟨0, 4, [], 101⟩, ⟨0, 100, [.query, .sine], 87⟩,
   ⟨0, 100, [.qp2], 91⟩, ⟨0, 4, [.qp2], 112⟩, ⟨0, 4, [.qp2], 138⟩, ⟨0, 100, [.query, .qp3], 69⟩, ⟨0, 100, [.query, .qp3, .sine], 79⟩,
   ⟨0, 100, [.eq], 140⟩, ⟨0, 100, [.qp1, .sine], 81⟩, ⟨0, 100, [.sine], 102⟩, ⟨0, 100, [.query, .qp2], 77⟩, ⟨0, 100, [.sine], 148⟩,
   ⟨0, 100, [.eq, .qp2, .sine], 129⟩, ⟨0, 100, [.qp2, .sine], 101⟩, ⟨0, 4, [.query, .qp1], 69⟩, ⟨0, 4, [.qp1], 71⟩, ⟨0, 4, [], 71⟩,
   ⟨0, 4, [], 71⟩, ⟨0, 4, [], 62⟩, ⟨0, 4, [.qp1], 86⟩, ⟨0, 4, [.qp1], 62⟩, ⟨0, 4, [.qp1], 138⟩, ⟨0, 4, [.qp1], 71⟩,
   ⟨0, 4, [.query, .qp1], 90⟩, ⟨0, 4, [.qp1], 86⟩, ⟨0, 4, [], 141⟩, ⟨0, 4, [], 138⟩, ⟨0, 4, [.qp1, .sine], 81⟩,
   ⟨0, 4, [.query, .qp1, .sine], 136⟩, ⟨0, 4, [.sine], 81⟩, ⟨0, 4, [.query], 86⟩, ⟨0, 4, [.query, .qp1], 90⟩, ⟨0, 4, [], 83⟩,
   ⟨0, 4, [], 139⟩, ⟨0, 4, [.eq, .query, .qp1], 82⟩, ⟨0, 4, [.query, .qp1, .sine], 79⟩, ⟨0, 4, [.sine], 72⟩, ⟨0, 4, [.query, .qp1], 135⟩,
   ⟨0, 4, [.eq], 84⟩, ⟨0, 4, [], 71⟩, ⟨0, 4, [], 86⟩, ⟨0, 4, [], 138⟩, ⟨0, 4, [.qp1], 110⟩, ⟨0, 4, [], 122⟩, ⟨0, 4, [], 117⟩,
   ⟨0, 4, [.qp1], 93⟩, ⟨0, 4, [], 86⟩, ⟨0, 4, [.query, .qp1], 132⟩, ⟨0, 4, [.qp1], 143⟩, ⟨0, 4, [], 95⟩, ⟨0, 4, [], 86⟩,
   ⟨0, 4, [.qp2, .sine], 113⟩, ⟨0, 4, [.qp2, .sine], 135⟩, ⟨0, 4, [.query, .qp1], 79⟩, ⟨0, 4, [.sine], 136⟩, ⟨0, 4, [.eq], 75⟩,
   ⟨0, 4, [.sine], 81⟩, ⟨0, 4, [.qp2], 123⟩, ⟨0, 4, [.qp1], 98⟩, ⟨0, 4, [.qp1], 77⟩, ⟨0, 4, [], 93⟩, ⟨0, 4, [.query, .qp1], 108⟩,
   ⟨0, 4, [.query, .qp1, .sine], 79⟩, ⟨0, 4, [], 132⟩, ⟨0, 4, [], 100⟩, ⟨0, 4, [.eq, .query], 165⟩, ⟨0, 4, [], 86⟩,
   ⟨0, 4, [.query, .qp1], 86⟩, ⟨0, 4, [.eq], 182⟩, ⟨0, 4, [.query, .qp1, .sine], 154⟩, ⟨0, 4, [], 113⟩, ⟨0, 4, [], 98⟩, ⟨0, 4, [], 123⟩,
   ⟨0, 4, [], 128⟩, ⟨0, 4, [.eq, .query, .qp1], 164⟩, ⟨0, 4, [], 112⟩, ⟨0, 4, [.eq, .query, .qp1, .sine], 114⟩, ⟨0, 4, [], 139⟩,
   ⟨0, 4, [.qp1], 140⟩, ⟨0, 4, [.qp1], 163⟩, ⟨0, 4, [.qp1], 86⟩, ⟨0, 4, [.qp1, .sine], 96⟩, ⟨0, 4, [.eq, .qp1], 85⟩, ⟨0, 4, [], 92⟩,
   ⟨0, 4, [.qp2], 92⟩, ⟨0, 4, [], 95⟩, ⟨0, 4, [], 112⟩, ⟨0, 4, [], 140⟩, ⟨0, 4, [.qp1], 110⟩, ⟨0, 4, [.query, .qp1], 126⟩,
   ⟨0, 4, [.query, .qp1], 153⟩, ⟨0, 4, [.qp1], 117⟩, ⟨0, 4, [.eq, .query, .qp1], 114⟩, ⟨0, 4, [.query, .qp1], 183⟩,
   ⟨0, 4, [.eq, .sine], 155⟩, ⟨0, 4, [.qp1], 76⟩, ⟨0, 4, [.qp1, .sine], 133⟩, ⟨0, 4, [.query, .qp1], 138⟩, ⟨0, 4, [], 77⟩,
   ⟨0, 4, [.eq, .query, .qp1, .sine], 180⟩, ⟨0, 4, [.qp1], 108⟩, ⟨0, 4, [.eq, .query, .qp1, .sine], 206⟩, ⟨0, 4, [.sine], 72⟩,
   ⟨0, 4, [.eq], 138⟩]

/-- what is known about the clauses. Reasoner/analyze.c:1199-1227, 1290-1294 -/
structure Stats where
  clauses : Nat
  unitClauses : Nat
  posEq : Nat
  negEq : Nat
  axioms : Nat
  goals : Nat
  posunitGoals : Nat
  negGoals : Nat
  assumptions : Nat
  /-- those of the file alone, without the shared ones -/
  own : Nat

/-- `eq`. Reasoner/analyze.c:1200-1206 -/
def Stats.eq (x : Stats) : Bool := x.posEq + x.negEq ≠ 0

/-- `ueq`. Reasoner/analyze.c:1290-1294 -/
def Stats.ueq (x : Stats) : Bool := x.clauses = x.unitClauses ∧ x.clauses = x.posEq + x.negEq

/-- `qp1ok`. Reasoner/analyze.c:1220-1223 -/
def Stats.qp1 (x : Stats) : Bool := ¬ x.goals * 3 > x.own * 2

/-- `qp2ok`. Reasoner/analyze.c:1207-1212, 1219, 1224-1227 -/
def Stats.qp2 (x : Stats) : Bool :=
  ¬ (x.axioms = 0 ∧ (x.goals = 1 ∨ x.posunitGoals = 0)) ∧ ¬ (x.goals + x.assumptions) * 3 > x.own * 2

/-- `qp3ok`. Reasoner/analyze.c:1213-1218 -/
def Stats.qp3 (x : Stats) : Bool := ¬ (x.assumptions = 0 ∧ (x.goals = 1 ∨ x.goals = x.negGoals))

/-- `sineok`. Reasoner/analyze.c:1283-1284 -/
def Stats.sine (x : Stats) : Bool := x.clauses > 50

/-- the values of the parameters; `queryok` is always 1. Reasoner/analyze.c:1188 -/
def on (qp1 qp2 qp3 sine eq : Bool) : Flag → Bool
  | .query => true
  | .qp1 => qp1
  | .qp2 => qp2
  | .qp3 => qp3
  | .sine => sine
  | .eq => eq

/-- the branch of make_guide. Reasoner/makeguide.c:35, 167, 188-191, 242, 291, 348, 402, 444-447, 565, 698, 846, 972 -/
def table (x : Stats) : List Entry :=
  if x.ueq then (if x.clauses > 9 then unitEq ++ unitEqMore else unitEq)
  else if !x.eq then
    if x.clauses < 10 then plain0 else if x.clauses < 100 then plain1 else if x.clauses < 1000 then plain2
    else if x.clauses < 10000 then plain3 else if x.clauses < 100000000 then plain4 else []
  else
    if x.clauses < 10 then equal0 else if x.clauses < 100 then equal1 else if x.clauses < 1000 then equal2
    else if x.clauses < 10000 then equal3 else if x.clauses < 100000000 then equal4 else []

/-- the lines that make_guide writes in an iteration: one run each -/
def written (t : List Entry) (f : Flag → Bool) (it : Nat) : List Entry := t.filter fun e => it < e.first || (it < e.below && e.flags.all f)

/-- `dsecs` in the iterations 1 to 5: ten times as much after the first one, five times after the others. Reasoner/analyze.c:1274-1279, 1318-1321 -/
def dsecs (start : Nat) : Nat → Nat
  | 0 => start
  | 1 => start
  | 2 => start * 10
  | n + 3 => dsecs start (n + 2) * 5

/-- the number of digits that %d writes; the times are below 100000 -/
def digits (n : Nat) : Nat := if n < 10 then 1 else if n < 100 then 2 else if n < 1000 then 3 else if n < 10000 then 4 else if n < 100000 then 5 else n

/-- the number of runs that the five iterations write. Reasoner/analyze.c:1186, 1296-1328 -/
def countOf (t : List Entry) (f : Flag → Bool) : Nat := ([1, 2, 3, 4, 5].map fun it => (written t f it).length).sum

/-- the characters that the five iterations write, with the empty lines between them -/
def charsOf (t : List Entry) (f : Flag → Bool) (start : Nat) : Nat :=
  ([1, 2, 3, 4, 5].map fun it => ((written t f it).map fun e => e.chars + digits (dsecs start it)).sum).sum + 4

/-- the parameters for these clauses -/
def Stats.on (x : Stats) : Flag → Bool := Ag.on x.qp1 x.qp2 x.qp3 x.sine x.eq

/-- the time of the first iteration. Reasoner/analyze.c:1274-1279 -/
def Stats.start (x : Stats) : Nat := if x.clauses > 500000 then 50 else 1

/-- the number of runs of the strategy -/
def runs (x : Stats) : Nat := countOf (table x) x.on

/-- the bytes that are written to the buffer, where `level` is the number of characters of the print level: the head, the switch for
    equality, the beginning of the runs, the runs, the end, and the zero at the end of the string. Reasoner/analyze.c:1243-1264, 1338 -/
def bytes (x : Stats) (level : Nat) : Nat :=
  97 + level + (if x.eq then 0 else 14) + 9 + charsOf (table x) x.on x.start + 4 + 1

/-- the iterations that are made for the special parameter of large theories, which are counted from 0 there and lie between two limits
    of the database. Reasoner/analyze.c:1234, 1240-1241, 1296-1298 -/
def between (lo hi : Int) : List Nat := [1, 2, 3, 4, 5].filter fun it => decide (lo ≤ (it : Int) - 1 ∧ (it : Int) - 1 ≤ hi)

/-- the limits that the database has from the beginning; nothing in the program changes them. Db/dballoc.c:133-134 -/
def limits : Int × Int := (0, 1000)

/-- the runs for the special parameter -/
def runsSpecial (x : Stats) (lo hi : Int) : Nat := ((between lo hi).map fun it => (written (table x) x.on it).length).sum

/-- the bytes for the special parameter: another head, the iterations between the limits, and at most four empty lines (after a break
    there are fewer). Reasoner/analyze.c:1236-1239, 1261-1264, 1310-1315, 1338 -/
def bytesSpecial (x : Stats) (lo hi : Int) : Nat :=
  32 + (if x.eq then 0 else 14) + 9 +
    ((between lo hi).map fun it => ((written (table x) x.on it).map fun e => e.chars + digits (dsecs x.start it)).sum).sum + 4 + 4 + 1

/-- the size of the buffer. Reasoner/analyze.c:1231 -/
def room : Nat := 50000

end Gkc.Ag
