import Verif.Model.Bytes
/-!
# Specification of decoding (C91)

The encoding of a character is that of Lean's library (`String.utf8EncodeChar`).
-/

namespace Verif.Spec
open Verif

/-- The bytes of a text. -/
def Utf8 (s : Str) : List UInt8 := s.flatMap String.utf8EncodeChar

/-- The beginning of the bytes of a character, but not all of them. -/
def Unfinished (bad : List UInt8) : Prop := ∃ c more, more ≠ [] ∧ bad ++ more = String.utf8EncodeChar c

/-- `Decodes bs s`: leaving out what cannot be decoded, the bytes `bs` are the text `s`.  If they do not begin with the bytes
of a character, the longest unfinished character at the beginning is left out, or one byte if there is none. -/
inductive Decodes : List UInt8 → Str → Prop
  | nil : Decodes [] []
  | char (c : Char) {rest : List UInt8} {s : Str} (h : Decodes rest s) : Decodes (String.utf8EncodeChar c ++ rest) (c :: s)
  | junk (bad : List UInt8) {rest : List UInt8} {s : Str} (hn : ∀ c, ¬ String.utf8EncodeChar c <+: bad ++ rest)
      (hb : Unfinished bad ∧ bad ≠ [] ∨ bad.length = 1)
      (hm : ∀ more, more ≠ [] → more <+: rest → ¬ Unfinished (bad ++ more)) (h : Decodes rest s) : Decodes (bad ++ rest) s

/-! ## A file system with bytes -/

/-- A structured file, by its name. -/
def isStructured (name : Str) : Bool := c!".json".isSuffixOf name || c!".yaml".isSuffixOf name

/-- What a file shows: its text; undecodable bytes are left out in a text file, and make a structured file unreadable. -/
def asText (name : Str) (bs : Bytes) : FNode :=
  if isStructured name then
    match decodeStrict bs with
    | some s => .file s
    | none => .broken
  else .file (decodeIgnore bs)

/-- A file system with bytes, as texts. -/
def asTexts (name : Str) : FTree Bytes → FNode
  | .file bs => asText name bs
  | .broken => .broken
  | .dir es => .dir (entries es)
where
  /-- the entries of a directory -/
  entries : List (Str × FTree Bytes) → List (Str × FNode)
    | [] => []
    | (n, x) :: es => (n, asTexts n x) :: entries es

/-- The texts on a disk. -/
def texts (fs : FTree Bytes) : FNode := asTexts [] fs

end Verif.Spec
