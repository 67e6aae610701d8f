import Verif.Build
/-
Assembling derived clauses: Reasoner/derive.c wr_process_resolve_result,
wr_process_factor_result, wr_process_paramodulate_result up to the point where the literals are
collected, with the inference loops of Reasoner/resolve.c that call them.

Simplifications: buffers never run out; the loops over index buckets, clause lengths and
strategy filters are left out (they only decide which inferences are tried), so each function
below is one inference for given literal positions.
-/
namespace Gkc
open Term

/-- A literal of a stored clause: sign, atom, and the word by which the clause refers to the
atom (the record offset, or the constant itself for an atom that is a constant). -/
structure ALit where
  addr : Nat
  neg : Bool
  atom : Term

/-- the literal without its address -/
def ALit.lit (l : ALit) : Lit := ⟨l.neg, l.atom⟩

/-- outcome of assembling: `illegal` and `taut` are both `return 0` (the clause is dropped),
kept apart to be able to say why -/
inductive Asm
  | fuel
  | illegal
  | taut
  | ok (rs : List Lit) (s : BSt)

/-- the search for an equal atom among the collected literals, Reasoner/derive.c:1247-1278:
`some true` same sign found first, `some false` opposite sign found first -/
def findSame (neg : Bool) (a : Term) : List Lit → Option Bool
  | [] => none
  | r :: rs => if eqTerm a r.atom then some (neg == r.neg) else findSame neg a rs

/-- One literal of the loop of wr_process_resolve_result_aux after its atom is built,
Reasoner/derive.c:1234-1284. -/
def asmStep (rs : List Lit) (s : BSt) (neg : Bool) (a : Term) : Asm :=
  if a.beq (.const aTrue) then (if neg then .ok rs s else .taut)
  else if a.beq (.const aFalse) then (if neg then .taut else .ok rs s)
  else match findSame neg a rs with
    | some true => .ok rs s
    | some false => .taut
    | none => .ok (rs ++ [⟨neg, a⟩]) s

/-- building the atom of literal number `i`, Reasoner/derive.c:1214-1220; `repl` holds literal
number, position and replacement term -/
def asmAtom (ev : Term → Option Term) (bank n : Nat) (repl : Option (Nat × Nat × Term)) (i : Nat)
    (s : BSt) (a : Term) : Out (Term × BSt) :=
  match repl with
  | some (ln, pos, t) =>
    if i = ln then match buildRepl ev bank pos t n s a 0 with
      | .fuel => .fuel
      | .illegal => .illegal
      | .ok (r, s', _) => .ok (r, s')
    else build ev bank n s a
  | none => build ev bank n s a

/-- wr_process_resolve_result_aux, Reasoner/derive.c:1178-1287.  `cut` is `cutatom` (`none` for
the value 0, which no atom has). -/
def asmCl (ev : Term → Option Term) (bank n : Nat) (cut : Option Nat) (repl : Option (Nat × Nat × Term)) :
    Nat → List Lit → BSt → List ALit → Asm
  | _, rs, s, [] => .ok rs s
  | i, rs, s, l :: ls =>
    if cut = some l.addr then asmCl ev bank n cut repl (i + 1) rs s ls
    else match asmAtom ev bank n repl i s l.atom with
      | .fuel => .fuel
      | .illegal => .illegal
      | .ok (a, s') => match asmStep rs s' l.neg a with
        | .ok rs' s'' => asmCl ev bank n cut repl (i + 1) rs' s'' ls
        | o => o

/-- Collecting the literals of a resolvent, Reasoner/derive.c:129-173.  The result `[]` is the
empty clause (`proof_found`). -/
def resolveLits (ev : Term → Option Term) (bank n : Nat) (st : St) (xcl : List ALit) (xa : Nat)
    (ycl : List ALit) (ya : Nat) : Asm :=
  if xcl.length + ycl.length = 2 then .ok [] ⟨st, 0⟩
  else match (if xcl.length > 1 then asmCl ev bank n (some xa) none 0 [] ⟨st, 0⟩ xcl else .ok [] ⟨st, 0⟩) with
    | .ok rs s => if ycl.length > 1 then asmCl ev bank n (some ya) none 0 rs s ycl else .ok rs s
    | o => o

/-- Collecting the literals of a factor, Reasoner/derive.c:642-679 (also used for equality
reflexivity). -/
def factorLits (ev : Term → Option Term) (bank n : Nat) (st : St) (xcl : List ALit) (xa : Nat) : Asm :=
  if xcl.length = 1 then .ok [] ⟨st, 0⟩
  else asmCl ev bank n (some xa) none 0 [] ⟨st, 0⟩ xcl

/-- wr_encode_para_termpath, Reasoner/clstore.c:785-787 -/
def encPath (litnr pos : Nat) : Nat := (litnr <<< 16) ||| pos
/-- wr_decode_para_termpath_litnr, Reasoner/clstore.c:789-791 -/
def decLitnr (n : Nat) : Nat := (n &&& 0xFF0000) >>> 16
/-- wr_decode_para_termpath_pos, Reasoner/clstore.c:793-795 -/
def decPos (n : Nat) : Nat := n &&& 0xFFFF

/-- Collecting the literals of a paramodulant, Reasoner/derive.c:910-938: `xcl` holds the
equation, `ycl` is rewritten at the encoded path. -/
def paraLits (ev : Term → Option Term) (bank n : Nat) (st : St) (xcl : List ALit) (xa : Nat)
    (ycl : List ALit) (path : Nat) (bterm : Term) : Asm :=
  match (if xcl.length > 1 then asmCl ev bank n (some xa) none 0 [] ⟨st, 0⟩ xcl else .ok [] ⟨st, 0⟩) with
  | .ok rs s => asmCl ev bank n none (some (decLitnr path, decPos path, bterm)) 0 rs s ycl
  | o => o

/-- outcome of one inference -/
inductive Inf
  | fuel
  /-- the inference does not apply -/
  | none
  /-- the result was dropped: `taut` or `illegal` -/
  | dropped (tautology : Bool)
  | ok (cl : List Lit)

/-- result of assembling as result of an inference -/
def Asm.inf : Asm → Inf
  | .fuel => .fuel
  | .illegal => .dropped false
  | .taut => .dropped true
  | .ok rs _ => .ok rs

/-- Binary resolution of literal `i` of `xcl` with literal `j` of `ycl`: the body of
wr_resolve_binary_all_active, Reasoner/resolve.c:133-349 (the index holds literals of the
opposite sign only, resolve.c:163-164), setup of the builder derive.c:2153-2169 (bank 3). -/
def resolveInf (ev : Term → Option Term) (n : Nat) (xcl : List ALit) (i : Nat) (ycl : List ALit) (j : Nat) : Inf :=
  match xcl[i]?, ycl[j]? with
  | some x, some y =>
    if x.neg == y.neg then .none
    else match unify n St.empty x.atom y.atom with
      | .none => .fuel
      | some (false, _) => .none
      | some (true, st) => (resolveLits ev 3 n st xcl x.addr ycl y.addr).inf
  | _, _ => .none

/-- is the atom a compound term -/
def isRec : Term → Bool
  | .app _ _ => true
  | _ => false

/-- Factoring on literals `i` < `j`: body of wr_factor, Reasoner/resolve.c:388-457. -/
def factorInf (ev : Term → Option Term) (n : Nat) (xcl : List ALit) (i j : Nat) : Inf :=
  if i < j then match xcl[i]?, xcl[j]? with
    | some x, some y =>
      if x.neg != y.neg then .none
      else if isRec x.atom && isRec y.atom then
        match unify n St.empty x.atom y.atom with
        | .none => .fuel
        | some (false, _) => .none
        | some (true, st) => (factorLits ev 3 n st xcl x.addr).inf
      else .none
    | _, _ => .none
  else .none

/-- arguments of an equality atom: wr_equality_atom (Reasoner/build.c:948-969) and the length
test of Reasoner/resolve.c:1304-1308 -/
def eqArgs : Term → Option (Term × Term)
  | .app f (a :: b :: _) => if f = .sym "=" then some (a, b) else none
  | _ => none

/-- Equality reflexivity on literal `i`: body of wr_resolve_equality_reflexive,
Reasoner/resolve.c:1270-1342. -/
def eqReflInf (ev : Term → Option Term) (n : Nat) (xcl : List ALit) (i : Nat) : Inf :=
  match xcl[i]? with
  | some x =>
    if !x.neg then .none
    else match eqArgs x.atom with
      | .none => .none
      | some (a, b) => match unify n St.empty a b with
        | .none => .fuel
        | some (false, _) => .none
        | some (true, st) => (factorLits ev 3 n st xcl x.addr).inf
  | .none => .none

mutual
/-- Numbering of the subterms of an atom, wr_cl_store_para_subterms Reasoner/clstore.c:697-783
and wr_paramodulate_into_subterms_all_active Reasoner/resolve.c:940-1262: the counter grows
before each argument; a counter above 60000 stops the descent; variables and the atom itself
are left out.  Returns the subterms with their numbers and the counter. -/
def paraSubs (depth path : Nat) : Term → List (Term × Nat) × Nat
  | .var _ => ([], path)
  | .const c => (if path > 60000 ∨ depth < 1 then [] else [(.const c, path)], path)
  | .app f as =>
    if path > 60000 then ([], path)
    else
      let r := paraSubsL (depth + 1) path as
      ((if depth < 1 then r.1 else r.1 ++ [(.app f as, path)]), r.2)
def paraSubsL (depth path : Nat) : List Term → List (Term × Nat) × Nat
  | [] => ([], path)
  | a :: as =>
    let r := paraSubs depth (path + 1) a
    let q := paraSubsL depth r.2 as
    (r.1 ++ q.1, q.2)
end

/-- subterms of literal number `litnr` offered for paramodulation: none above 255 -/
def paraTargets (litnr : Nat) (atom : Term) : List (Term × Nat) :=
  if litnr > 255 then [] else (paraSubs 0 0 atom).1

/-- Paramodulation from the equation literal `i` of the given clause into the `k`-th stored
subterm of literal `j` of an active clause: body of wr_paramodulate_from_all_active,
Reasoner/resolve.c:474-837.  `left` tells which side of the equation is replaced. -/
def paraFromInf (ev : Term → Option Term) (n : Nat) (xcl : List ALit) (i : Nat) (left : Bool)
    (ycl : List ALit) (j k : Nat) : Inf :=
  match xcl[i]?, ycl[j]? with
  | some x, some y =>
    if x.neg then .none
    else match eqArgs x.atom, (paraTargets j y.atom)[k]? with
      | some (a, b), some (yterm, pos) =>
        let l := if left then a else b
        let r := if left then b else a
        match unify n St.empty l yterm with
        | .none => .fuel
        | some (false, _) => .none
        | some (true, st) => (paraLits ev 3 n st xcl x.addr ycl (encPath j pos) r).inf
      | _, _ => .none
  | _, _ => .none

/-- Paramodulation into the `k`-th subterm of literal `j` of the given clause from the equation
stored for literal `i` of an active clause: body of wr_paramodulate_into_subterms_all_active,
Reasoner/resolve.c:1040-1246.  The stored entry has the term and the encoded literal number and
side (wr_cl_store_eq_arg, clstore.c:611-636); the literal is found again by decoding it. -/
def paraIntoInf (ev : Term → Option Term) (n : Nat) (xcl : List ALit) (i : Nat) (left : Bool)
    (ycl : List ALit) (j k : Nat) : Inf :=
  match xcl[i]?, ycl[j]? with
  | some x, some y =>
    if x.neg then .none
    else match eqArgs x.atom, (paraTargets j y.atom)[k]? with
      | some (a, b), some (yterm, pos) =>
        match unify n St.empty yterm (if left then a else b) with
        | .none => .fuel
        | some (false, _) => .none
        | some (true, st) =>
          let eqpath := encPath i (if left then 1 else 0)
          match xcl[decLitnr eqpath]? with
          | .none => .none
          | some x' => match x'.atom with
            | .app _ (a' :: b' :: _) =>
              (paraLits ev 3 n st xcl x'.addr ycl (encPath j pos)
                (if decPos eqpath ≠ 0 then b' else a')).inf
            | _ => .none
      | _, _ => .none
  | _, _ => .none

/-- wr_tautology_cl, Reasoner/derive.c:1290-1335: two literals of opposite sign with equal
summaries and equal atoms.  `m` is the masked summary of an atom, compared first. -/
def tautCl (m : Term → Nat) : List Lit → Bool
  | [] => false
  | l :: ls => ls.any (fun k => m l.atom == m k.atom && l.neg != k.neg && eqTerm l.atom k.atom) || tautCl m ls

end Gkc
