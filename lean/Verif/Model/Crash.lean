import Verif.Model.Bytes
import Verif.Model.Manager
/-!
# Writing that is interrupted (`wildcards/collection/text_file.py`)
-/

namespace Verif

variable {R : Type}

/-- The states of the disk while `path.write_text(contents)` runs (`wildcards/collection/text_file.py:46`; CPython
`pathlib.py` `write_text`): as it was before; then the file is emptied or made, and its bytes are written in order, any
number of them at a time.  No other state if the file cannot be opened. -/
def writeStates (fs : FTree Bytes) (p : Path) (contents : Str) : List (FTree Bytes) :=
  fs :: (List.range ((encodeUtf8 contents).length + 1)).filterMap fun n => fs.write ((encodeUtf8 contents).take n) p

/-- Models `wildcards/collection/text_file.py:42-47` `write_text` when the operating system reports an error (a full disk,
say) after `k` characters have been written: the exception leaves the function before line 47, so the cache is kept.
(`Props/Crash.lean` `cut_text`: a file cut between two bytes shows a text cut between two characters.) -/
def Mgr.textWriteFails (id : Nat) (contents : Str) (k : Nat) : M (Mgr R) Unit := fun s =>
  match s.heap[id]? with
  | none => .err .index s
  | some o =>
    match s.fs.write (contents.take k) o.path with
    | none => .err .os s
    | some fs => .err .os { s with fs := fs }

end Verif
