import Verif.Build
/-
Computing with terms: Reasoner/build.c:54-100, 978-1163, 1165-1839.

Integers are 64-bit signed; an arithmetic operation whose result does not fit is undefined in C and
has its own outcome here.  Doubles are IEEE binary64 with rounding to nearest even, given as
rationals.  Simplification: a function symbol is a name without a second string; allocation of
numbers never fails.
-/
namespace Gkc.Arith
open Term

/-- INTPTR_MIN -/
def iMin : Int := -9223372036854775808
/-- INTPTR_MAX -/
def iMax : Int := 9223372036854775807
/-- a gint -/
def Fits (a : Int) : Prop := iMin ≤ a ∧ a ≤ iMax
instance (a : Int) : Decidable (Fits a) := inferInstanceAs (Decidable (_ ∧ _))

/-- a C result that must fit; `none` is undefined behaviour -/
def ck (a : Int) : Option Int := if Fits a then some a else none
/-- `/` in C -/
def cdiv (a b : Int) : Option Int := if b = 0 then none else ck (a.tdiv b)
/-- `%` in C: undefined when the quotient does not fit -/
def cmod (a b : Int) : Option Int := if b = 0 then none else (ck (a.tdiv b)).map fun _ => a.tmod b

/-- wr_gint_add_checked, Reasoner/build.c:56-61; outer `none` is undefined behaviour, inner `none`
is the return value 0 -/
def addChecked (a b : Int) : Option (Option Int) :=
  if b > 0 then (ck (iMax - b)).bind fun m => if a > m then some none else (ck (a + b)).map some
  else if b < 0 then (ck (iMin - b)).bind fun m => if a < m then some none else (ck (a + b)).map some
  else (ck (a + b)).map some

/-- wr_gint_sub_checked, Reasoner/build.c:63-68 -/
def subChecked (a b : Int) : Option (Option Int) :=
  if b < 0 then (ck (iMax + b)).bind fun m => if a > m then some none else (ck (a - b)).map some
  else if b > 0 then (ck (iMin + b)).bind fun m => if a < m then some none else (ck (a - b)).map some
  else (ck (a - b)).map some

/-- wr_gint_mul_checked, Reasoner/build.c:70-90 -/
def mulChecked (a b : Int) : Option (Option Int) :=
  if a = 0 ∨ b = 0 then some (some 0)
  else if a = -1 then (if b = iMin then some none else (ck (0 - b)).map some)
  else if b = -1 then (if a = iMin then some none else (ck (0 - a)).map some)
  else if a > 0 ∧ b > 0 then
    (cdiv iMax b).bind fun m => if a > m then some none else (ck (a * b)).map some
  else if a > 0 ∧ b < 0 then
    (cdiv iMin a).bind fun m => if b < m then some none else (ck (a * b)).map some
  else if a < 0 ∧ b > 0 then
    (cdiv iMin b).bind fun m => if a < m then some none else (ck (a * b)).map some
  else
    (cdiv iMax b).bind fun m => if a < m then some none else (ck (a * b)).map some

/-! ### Doubles -/

/-- exponent of the last of 53 bits of a positive rational -/
def expo (x : Rat) : Int :=
  let l : Int := (Nat.log2 x.num.toNat : Int) - Nat.log2 x.den
  if (2 : Rat) ^ l ≤ x then l - 52 else l - 53

/-- rounding to the nearest integer, ties to even -/
def roundEven (y : Rat) : Int :=
  let f := y.floor
  if y - f < 1 / 2 then f
  else if 1 / 2 < y - f then f + 1
  else if f % 2 = 0 then f else f + 1

/-- rounding of a positive rational to binary64, without overflow; -1074 is the exponent of the least
subnormal number -/
def rndPos (x : Rat) : Rat :=
  let e := max (expo x) (-1074)
  roundEven (x / (2 : Rat) ^ e) * (2 : Rat) ^ e

/-- rounding of a rational to binary64 -/
def rnd (x : Rat) : Dbl :=
  if x = 0 then .fin 0
  else if 0 < x then (if rndPos x < (2 : Rat) ^ (1024 : Int) then .fin (rndPos x) else .inf false)
  else (if rndPos (-x) < (2 : Rat) ^ (1024 : Int) then .fin (- rndPos (-x)) else .inf true)

/-- `trunc` -/
def trunc (q : Rat) : Int := if q < 0 then q.ceil else q.floor
/-- `round`: halves away from zero -/
def roundAway (q : Rat) : Int := if q < 0 then (q - 1 / 2).ceil else (q + 1 / 2).floor

/-- wr_double_to_gint_checked, Reasoner/build.c:92-98; the comparison is in `long double`, which has
all 64 bits.  The cast drops the fraction. -/
def toGint : Dbl → Option Int
  | .fin q => if (iMin : Rat) ≤ q ∧ q ≤ iMax then some (trunc q) else none
  | .inf _ => none

/-- division of doubles; the divisor is not zero -/
def divD : Dbl → Dbl → Option Dbl
  | .fin x, .fin y => some (rnd (x / y))
  | _, _ => none

/-- `floor`, `ceil`, `trunc` and `round` of a double are doubles -/
def mapD (f : Rat → Int) : Dbl → Dbl
  | .fin q => .fin (f q)
  | .inf b => .inf b

/-! ### Which functions are computed -/

/-- the numbers COMP_FUN_..., Reasoner/build.h:68-115 -/
inductive Comp
  | equal | less | lesseq | greatereq | greater
  | plus | minus | mult | div | quotientE | quotientT | quotientF
  | remainderE | remainderT | remainderF
  | isInt | isReal | isNumber | isList | isMap | isAtom | isUnique
  | toInt | toReal | floor | ceiling | truncate | round | uminus
  | strlen | isSubstr | first | rest | isSubstrat
deriving DecidableEq, Repr

/-- wr_computable_termptr, Reasoner/build.c:978-1062; `arith` is use_comp_arithmetic.  Names starting
with "$a" and unknown names starting with "$i", "$qu", "$re" are answered early, with the same
result. -/
def computable (arith : Bool) (f : Const) : Option Comp :=
  match f with
  | .sym s =>
    if s = "=" then some .equal
    else if !arith then none
    else match s with
      | "$is_int" => some .isInt
      | "$is_real" => some .isReal
      | "$is_number" => some .isNumber
      | "$is_list" => some .isList
      | "$is_map" => some .isMap
      | "$is_atom" => some .isAtom
      | "$is_distinct" => some .isUnique
      | "$is_substr" => some .isSubstr
      | "$sum" => some .plus
      | "$product" => some .mult
      | "$difference" => some .minus
      | "$quotient" => some .div
      | "$less" => some .less
      | "$lesseq" => some .lesseq
      | "$greatereq" => some .greatereq
      | "$greater" => some .greater
      | "$to_int" => some .toInt
      | "$to_real" => some .toReal
      | "$floor" => some .floor
      | "$ceiling" => some .ceiling
      | "$truncate" => some .truncate
      | "$round" => some .round
      | "$uminus" => some .uminus
      | "$first" => some .first
      | "$rest" => some .rest
      | "$strlen" => some .strlen
      | "$substr" => some .isSubstr
      | "$substrat" => some .isSubstrat
      | "$quotient_e" => some .quotientE
      | "$quotient_t" => some .quotientT
      | "$quotient_f" => some .quotientF
      | "$remainder" => some .remainderE
      | "$remainder_e" => some .remainderE
      | "$remainder_t" => some .remainderT
      | "$remainder_f" => some .remainderF
      | "+" => some .plus
      | "-" => some .minus
      | "*" => some .mult
      | "/" => some .div
      | _ => none
  | _ => none

/-! ### Computing -/

/-- outcome of computing -/
inductive Res
  /-- undefined behaviour -/
  | ub
  /-- the term is returned as it is -/
  | keep
  | val (t : Term)
deriving DecidableEq, Repr

/-- an integer value -/
def Res.int (i : Int) : Res := .val (.const (.int i))
/-- a truth value -/
def Res.bool (b : Bool) : Res := .val (.const (if b then aTrue else aFalse))
/-- a double value, kept if not finite -/
def Res.dbl : Dbl → Res
  | .fin q => .val (.const (.dbl (.fin q)))
  | .inf _ => .keep

/-- a checked integer: outer `none` undefined, inner `none` kept -/
def Res.chk : Option (Option Int) → Res
  | none => .ub
  | some none => .keep
  | some (some i) => .int i

/-- an integer from a double, kept when it does not fit -/
def Res.gint (d : Option Dbl) : Res :=
  match d with
  | none => .keep
  | some d => match toGint d with
    | none => .keep
    | some i => .int i

/-- `ri=(ai==INTPTR_MIN && bi==-1) ? 0 : ai % bi`, Reasoner/build.c:1357-1366 -/
def remC (a b : Int) : Res :=
  if a = iMin ∧ b = -1 then .int 0 else Res.chk ((cmod a b).map some)

/-- wr_compute_fun_arith2 for two integers, Reasoner/build.c:1327-1372 -/
def arith2I (c : Comp) (a b : Int) : Res :=
  match c with
  | .plus => Res.chk (addChecked a b)
  | .minus => Res.chk (subChecked a b)
  | .mult => Res.chk (mulChecked a b)
  | .div =>
    if b = 0 then .keep
    else if a = iMin ∧ b = -1 then .keep
    else Res.chk ((cdiv a b).map some)
  | .quotientE =>
    if b = 0 then .keep
    else if b < 0 then Res.gint ((divD (rnd a) (rnd b)).map (mapD Rat.floor))
    else Res.gint ((divD (rnd a) (rnd b)).map (mapD Rat.ceil))
  | .quotientT => if b = 0 then .keep else Res.gint ((divD (rnd a) (rnd b)).map (mapD trunc))
  | .quotientF => if b = 0 then .keep else Res.gint ((divD (rnd a) (rnd b)).map (mapD Rat.floor))
  | .remainderE => if b = 0 then .keep else remC a b
  | .remainderT => if b = 0 then .keep else remC a b
  | .remainderF => if b = 0 then .keep else remC a b
  | _ => .keep

/-- a number as a double -/
def numD : Const → Option Dbl
  | .int i => some (rnd i)
  | .dbl d => some d
  | _ => none

/-- remainders of doubles, Reasoner/build.c:1407-1431 -/
def remD (x y : Rat) : Res :=
  match toGint (.fin x), toGint (.fin y) with
  | some a, some b => if b = 0 then .keep else remC a b
  | _, _ => .keep

/-- wr_compute_fun_arith2 for doubles, Reasoner/build.c:1373-1442 -/
def arith2D (c : Comp) (x y : Rat) : Res :=
  match c with
  | .plus => Res.dbl (rnd (x + y))
  | .minus => Res.dbl (rnd (x - y))
  | .mult => Res.dbl (rnd (x * y))
  | .div => if y = 0 then .keep else Res.dbl (rnd (x / y))
  | .quotientE =>
    if y = 0 then .keep
    else if y < 0 then Res.gint (some (mapD Rat.floor (rnd (x / y))))
    else Res.gint (some (mapD Rat.ceil (rnd (x / y))))
  | .quotientT => if y = 0 then .keep else Res.gint (some (mapD trunc (rnd (x / y))))
  | .quotientF => if y = 0 then .keep else Res.gint (some (mapD Rat.floor (rnd (x / y))))
  | .remainderE => remD x y
  | .remainderT => remD x y
  | .remainderF => remD x y
  | _ => .keep

/-- wr_compute_fun_arith2, Reasoner/build.c:1313-1442 -/
def arith2 (c : Comp) : List Term → Res
  | .const a :: .const b :: _ =>
    match a, b with
    | .int i, .int j => arith2I c i j
    | a, b => match numD a, numD b with
      | some (.fin x), some (.fin y) => arith2D c x y
      | _, _ => .keep
  | _ => .keep

/-- wr_compute_fun_lesseq_core, Reasoner/build.c:1268-1311 -/
def lesseqCore (ifequal isless : Bool) : List Term → Res
  | a :: b :: _ =>
    if a = b then Res.bool ifequal
    else match a, b with
    | .const (.int i), .const (.int j) => Res.bool (if isless then decide (i < j) else decide (i > j))
    | .const a, .const b => match numD a, numD b with
      | some (.fin x), some (.fin y) => Res.bool (if isless then decide (x < y) else decide (x > y))
      | _, _ => .keep
    | _, _ => .keep
  | _ => .keep

/-- wr_record_is_list, Reasoner/build.c:1755-1778 -/
def isListRec : Term → Bool
  | .app (.sym "$list") [_, _] => true
  | _ => false

/-- wr_uri_is_list or wr_uri_is_unique, Reasoner/build.c:1731-1753 -/
def isNilStr : Term → Bool
  | .const (.sym "$nil") => true
  | .const (.str _) => true
  | _ => false

/-- types WG_INTTYPE, WG_DOUBLETYPE -/
def isNum : Term → Bool
  | .const (.int _) => true
  | .const (.dbl _) => true
  | _ => false

/-- types WG_RECORDTYPE, WG_URITYPE, WG_ANONCONSTTYPE (the constants true and false) -/
def isOpen : Term → Bool
  | .app _ _ => true
  | .const (.sym _) => true
  | .const (.str _) => true
  | .const (.qsym _) => true
  | .const (.oth k) => k ≤ 1
  | _ => false

/-- type WG_VARTYPE -/
def isVarT : Term → Bool
  | .var _ => true
  | _ => false

/-- the two values of a list term that is recursed into -/
def listArgs : Term → Option (Term × Term)
  | .app (.sym "$list") [x, y] => some (x, y)
  | _ => none

/-- wr_compute_fun_equal_terms, Reasoner/build.c:1181-1266; `none` is the term itself.  The first
argument bounds the recursion into lists; the size of the term is always enough. -/
def eqTerms : Nat → Term → Term → Option Bool
  | 0, _, _ => none
  | n + 1, a, b =>
    if a = b then some true
    else if isVarT a || isVarT b then none
    else if isNum b && (isListRec a || isNilStr a) then some false
    else if isNum a && (isListRec b || isNilStr b) then some false
    else if isListRec a && isNilStr b then some false
    else if isListRec b && isNilStr a then some false
    else match listArgs a, listArgs b with
      | some (x, y), some (x', y') =>
        match eqTerms n x x' with
        | some true => eqTerms n y y'
        | r => r
      | _, _ =>
        if isNilStr a && isNilStr b then some false
        else if isOpen a || isOpen b then none
        else some false

/-- wr_compute_fun_equal, Reasoner/build.c:1165-1178 -/
def equalFun : List Term → Res
  | a :: b :: _ => match eqTerms (size a + 1) a b with
    | some v => Res.bool v
    | none => .keep
  | _ => .keep

/-- the string of a uri, with or without second string -/
def uriStr : Term → Option String
  | .const (.sym s) => some s
  | .const (.str s) => some s
  | .const (.qsym s) => some s
  | _ => none

/-- `strstr(bs,as)` finds something -/
def isSub (as bs : List Char) : Bool :=
  match bs with
  | [] => as.isEmpty
  | b :: bs' => as.isPrefixOf (b :: bs') || isSub as bs'

/-- wr_compute_fun_str, Reasoner/build.c:1444-1485; strings are taken as lists of characters, one byte
each.  With two arguments `$substrat` reads behind the record. -/
def strFun (c : Comp) : List Term → Res
  | a :: b :: rest =>
    match uriStr a, uriStr b with
    | some as, some bs =>
      match c with
      | .isSubstr => Res.bool (isSub as.toList bs.toList)
      | .isSubstrat =>
        match rest with
        | [] => .ub
        | .const (.int ci) :: _ =>
          if ci < 0 ∨ ci > bs.toList.length ∨ as.toList.length + ci > bs.toList.length then .keep
          else Res.bool (bs.toList[ci.toNat]? == as.toList[0]?)
        | _ => .keep
      | _ => .keep
    | _, _ => .keep
  | _ => .keep

/-- wr_compute_fun_list, Reasoner/build.c:1780-1834, opcodes 1 (`head`) and 0 -/
def listFun (head : Bool) : List Term → Res
  | [a] => match listArgs a with
    | some (x, y) => .val (if head then x else y)
    | none => .keep
  | _ => .keep

/-- wr_compute_fun_arith1, Reasoner/build.c:1487-1729, for the functions that come here -/
def arith1 (c : Comp) : List Term → Res
  | .const (.int i) :: _ =>
    match c with
    | .isInt => Res.bool true
    | .isReal => Res.bool false
    | .isNumber => Res.bool true
    | .toInt => .int i
    | .toReal => Res.dbl (rnd i)
    | .floor => .int i
    | .ceiling => .int i
    | .truncate => .int i
    | .round => .int i
    | .uminus => if i = iMin then .keep else Res.chk ((ck (0 - i)).map some)
    | _ => .keep
  | .const (.dbl d) :: _ =>
    match c with
    | .isInt => Res.bool false
    | .isReal => Res.bool true
    | .isNumber => Res.bool true
    | .toInt => Res.gint (some (mapD Rat.floor d))
    | .toReal => .val (.const (.dbl d))
    | .floor => Res.gint (some (mapD Rat.floor d))
    | .ceiling => Res.gint (some (mapD Rat.ceil d))
    | .truncate => Res.gint (some (mapD trunc d))
    | .round => Res.gint (some (mapD roundAway d))
    | .uminus => match d with
      | .fin q => .val (.const (.dbl (.fin (0 - q))))
      | .inf _ => .keep
    | _ => .keep
  | .const (.str s) :: _ =>
    match c with
    | .isInt => Res.bool false
    | .isReal => Res.bool false
    | .isNumber => Res.bool false
    | .strlen => .int s.toList.length
    | _ => .keep
  | _ => .keep

/-- wr_compute_from_termptr, Reasoner/build.c:1065-1127.  `$is_list`, `$is_map`, `$is_atom`,
`$is_distinct` go to the same call as `$first`. -/
def compute (c : Comp) (as : List Term) : Res :=
  match c with
  | .equal => equalFun as
  | .less => lesseqCore false true as
  | .lesseq => lesseqCore true true as
  | .greater => lesseqCore false false as
  | .greatereq => lesseqCore true false as
  | .plus | .minus | .mult | .div | .quotientE | .quotientT | .quotientF
  | .remainderE | .remainderT | .remainderF => arith2 c as
  | .isInt | .isReal | .isNumber | .toInt | .toReal | .floor | .ceiling | .truncate | .round
  | .uminus | .strlen => arith1 c as
  | .isList | .isMap | .isAtom | .isUnique | .first => listFun true as
  | .rest => listFun false as
  | .isSubstr | .isSubstrat => strFun c as

/-- computing a built record, Reasoner/build.c:422-437 -/
def computeRec (arith : Bool) : Term → Res
  | .app f as => match computable arith f with
    | none => .keep
    | some c => compute c as
  | _ => .keep

/-- the evaluation used by the builder (`ev` in Build.lean); undefined behaviour shows as `none` -/
def evalRec (arith : Bool) (t : Term) : Option Term :=
  match computeRec arith t with
  | .ub => none
  | .keep => some t
  | .val v => some v

end Gkc.Arith
