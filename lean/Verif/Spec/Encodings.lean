import Verif.Model.Encodings
import Verif.Model.Manager
import Verif.Spec.Bytes
/-!
# Specification of text files in other encodings
-/

namespace Verif.Spec
open Verif

/-- An encoding that can read what it writes, and reads nothing in an empty file. -/
structure Faithful (c : Codec) : Prop where
  again : ∀ s bs, c.encode s = some bs → c.decode bs = s
  empty : c.decode [] = []

/-- The file of collection `i`, and its encoding. -/
def OnFile (d : Desk) (i : Nat) (p : Path) (c : Codec) : Prop := ∃ cache, d.files[i]? = some ⟨p, c, cache⟩

/-- A call after which the file `p` is as before: nothing is written to it, through whatever collection. -/
def LeavesAlone (d : Desk) (p : Path) : TextCall → Prop
  | .values _ => True
  | .text _ => True
  | .write j _ => ∀ c, ¬ OnFile d j p c
  | .edit q _ => q ≠ p

/-- In the history `calls` that starts with `d`, no `write_text` of collection `i` succeeds. -/
def NoWrite (i : Nat) : Desk → List TextCall → Prop
  | _, [] => True
  | d, c :: cs => (∀ s, c = .write i s → d.answer c ≠ .done) ∧ NoWrite i (d.call c).2 cs

/-- The manager `s` works with the text files of `d`: on the texts on its disk, with collections for its objects, all in UTF-8 and none of
them for a structured file. -/
def WorksOn {R : Type} (s : Mgr R) (d : Desk) : Prop :=
  s.fs = texts d.fs ∧ s.heap = d.files.map (fun f => ⟨f.path, f.cache⟩) ∧
    ∀ f ∈ d.files, f.codec = .utf8 ∧ isStructured (f.path.getLastD []) = false

end Verif.Spec
