import Verif.Problem
/-
Files that include others: wr_import_otter_file and wr_process_tptp_import_clause (Parser/dbparse.c:143-297, 976-1081), and the status line
for a proof (Reasoner/history.c:1364-1369).

The files are a function from names to texts; a file that cannot be opened is `none`.  The two calls that open a file (fopen to try, freopen
to read) are taken to agree.  What is printed is left out.  After a first included file stdin is closed and is then opened again with
freopen, and closed once more at the end: the C library leaves both undefined; here they work.
-/
namespace Gkc.Pb
open Gkc.Conv (Lst Atm)
open Gkc.Ps (V Outcome)

/-- the files, and the environment variable TPTP -/
structure World where
  files : String → Option (List Char)
  env : Option String

/-- the part before the last slash: strrchr, Parser/dbparse.c:1020-1027 -/
def parent (f : String) : Option String :=
  match f.toList.reverse.dropWhile (· != '/') with
  | [] => none
  | _ :: r => some (String.ofList r.reverse)

/-- where an included file is looked for, Parser/dbparse.c:1019-1072: beside the file `cur`, and if it is not there in the folder for axioms -/
def lookup (w : World) (cur s : String) : String :=
  let s := if s.toList.head? = some '#' then String.ofList s.toList.tail else s
  let here := match parent cur with
    | some d => d ++ "/" ++ s
    | none => s
  if (w.files here).isSome then here
  else (match w.env with
    | some e => e ++ "/"
    | none => "/opt/TPTP/") ++ s

/-- The globals that change: g->filename, g->in_has_fof, g->parse_errflag.  `out` is what was given to the clausifier so far, in this order, `own` the part
of it from the file itself.  With `err` set nothing of the file is stored (Parser/dbparse.c:253-254) and the import fails. -/
structure Reading where
  filename : String
  hasFof : Bool
  err : Bool
  out : List Given
  own : List Given

/-- the end of an import: done; something undefined happened; or it takes more rounds or a deeper recursion -/
inductive Imp where
  | done (s : Reading)
  | undef
  | more

/-- one statement: in an included file a formula alone is not clausified, Parser/dbparse.c:629-636 -/
def givenIn (incl : Bool) (x : Lst) : Given :=
  if incl && !isStmt "include" 1 x && !isStmt "cnf" 3 x && !isStmt "fof" 3 x then readAs .clause x else given x

/-- wr_process_tptp_import_clause, Parser/dbparse.c:976-1081.  The name of the included file stays in g->filename (165), g->in_has_fof is set
to 0 before the file is opened (178), and whether that succeeds is not looked at (1078). -/
def inclFile (rec : Bool → String → List Char → Imp) (w : World) (x : Lst) (s : Reading) : Imp :=
  match x with
  | .list [_, .atom a] =>
    if a.ty == 7 then
      let f := lookup w s.filename a.s1
      match w.files f with
      | none => .done { s with filename := f, hasFof := false }
      | some txt => match rec true f txt with
        | .done r => .done { r with out := s.out ++ r.out, own := s.own }
        | r => r
    else .done s
  | _ => .undef

/-- one round of the loop of wr_preprocess_clauselist, Parser/dbparse.c:379-648; g->in_has_fof is set at 918 -/
def round (rec : Bool → String → List Char → Imp) (w : World) (incl : Bool) (x : Lst) (s : Reading) : Imp :=
  match givenIn incl x with
  | .incl => inclFile rec w x s
  | .undef => .undef
  | .error => .done { s with err := true }
  | g => .done { s with hasFof := s.hasFof || isStmt "fof" 3 x, out := s.out ++ [g], own := s.own ++ [g] }

/-- the loop: it ends when there was an error (380) -/
def each (rec : Bool → String → List Char → Imp) (w : World) (incl : Bool) : List Lst → Reading → Imp
  | [], s => .done s
  | x :: xs, s => if s.err then .done s else
    match round rec w incl x s with
    | .done s' => each rec w incl xs s'
    | r => r

/-- wr_import_otter_file, Parser/dbparse.c:143-297, with at most `n` rounds of the parser for each file and `d` files inside each other -/
def load (w : World) (n : Nat) : Nat → Bool → String → List Char → Imp
  | 0, _, _, _ => .more
  | d + 1, incl, name, txt =>
    match Ps.parse n txt with
    | none => .more
    | some .undef => .undef
    | some .error => .done ⟨name, false, true, [], []⟩
    | some .exhausted => .done ⟨name, false, true, [], []⟩
    | some (.accept none) => .done ⟨name, false, false, [], []⟩
    | some (.accept (some (.tree (.list l)))) => each (load w n d) w incl l ⟨name, false, false, [], []⟩
    | some (.accept (some _)) => .undef

/-- an import fails if there was an error or if no clause was stored that comes from the file itself (Parser/dbparse.c:285-296);
without statements of its own there is none -/
def refused (s : Reading) : Bool := s.err || s.own.isEmpty

/-- the word after `SZS status` for a proof, Reasoner/history.c:1364-1369; g->in_has_fof is handed on at Reasoner/rmain.c:1125, Main/gkc.c:424,
Reasoner/rmain.c:237, Reasoner/analyze.c:1460 -/
def status (s : Reading) : String := if s.hasFof then "Theorem" else "Unsatisfiable"

end Gkc.Pb
