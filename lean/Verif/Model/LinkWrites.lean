import Verif.Model.Links
/-!
# Writing through symbolic links

What `Path.write_text` (`wildcards/collection/text_file.py:46`) does on a file system with symbolic links: the operating system opens the
file for writing and makes it if it is not there (`open(2)` with `O_WRONLY | O_CREAT | O_TRUNC`).
-/

namespace Verif

variable {α : Type}

/-- Like `advance`, for a file that is opened for writing (`wildcards/collection/text_file.py:46`): the last name may be missing from its
directory. -/
def advanceNew (fs : LNode α) : Path → Path → Advance
  | cur, [] => .done cur
  | cur, n :: rest =>
    match fs.at cur with
    | some (.dir es) =>
      if n = c!".." then advanceNew fs cur.dropLast rest
      else
        match LNode.entry es n with
        | none => if rest.isEmpty then .done (cur ++ [n]) else .fail
        | some (.link abs t) => .link cur abs t rest
        | some _ => advanceNew fs (cur ++ [n]) rest
    | _ => .fail

/-- Like `resolve`, for a file that is opened for writing (`wildcards/collection/text_file.py:46`). -/
def resolveNew (fs : LNode α) (k : Nat) (cur path : Path) : Option Path :=
  match advanceNew fs cur path with
  | .done p => some p
  | .fail => none
  | .link dir abs target rest =>
    match k with
    | 0 => none
    | k + 1 => resolveNew fs k (if abs then [] else dir) (target ++ rest)

/-- Replace an entry of a directory, or add it at the end. -/
def LNode.setEntry (es : List (Str × LNode α)) (name : Str) (x : LNode α) : List (Str × LNode α) :=
  match es with
  | [] => [(name, x)]
  | (n, y) :: es => if n = name then (n, x) :: es else (n, y) :: LNode.setEntry es name x

/-- Write or make the file at a place, without following links; `none` if there is something else than a file that may be written, or no
directory to make it in.  (A file without permission to read is taken to be without permission to write.) -/
def LNode.put (n : LNode α) (contents : α) : Path → Option (LNode α)
  | [] =>
    match n with
    | .file _ => some (.file contents)
    | _ => none
  | p :: ps =>
    match n with
    | .dir es =>
      match LNode.entry es p with
      | none => if ps.isEmpty then some (.dir (LNode.setEntry es p (.file contents))) else none
      | some m => (m.put contents ps).map fun m' => .dir (LNode.setEntry es p m')
    | _ => none

/-- `path.write_text(...)`, as in `wildcards/collection/text_file.py:46`: `none` is an OSError. -/
def LNode.write (fs : LNode α) (contents : α) (path : Path) : Option (LNode α) :=
  match resolveNew fs maxLinks [] path with
  | none => none
  | some p => fs.put contents p

end Verif
