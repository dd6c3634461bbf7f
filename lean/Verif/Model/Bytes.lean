import Verif.Model.Files
/-!
# Files as bytes

How the bytes of a wildcard file become text: the UTF-8 decoder of CPython (`Objects/stringlib/codecs.h` `utf8_decode`,
`Objects/unicodeobject.c` `unicode_decode_utf8`) with `errors="ignore"` (text files,
`wildcards/collection/text_file.py:31,40`) and with `errors="strict"` (structured files,
`wildcards/collection/structured.py:102`).  Reading in chunks is not modelled.
-/

namespace Verif

/-- `IS_CONTINUATION_BYTE`. -/
def isCont (b : UInt8) : Bool := 0x80 ≤ b.toNat ∧ b.toNat < 0xC0

/-- The second of three bytes: a continuation byte, not after `E0` if it is below `A0` (overlong forms), not after `ED` otherwise
(surrogates). -/
def isSecond3 (a : Nat) (b : UInt8) : Bool := isCont b && !(if b.toNat < 0xA0 then a = 0xE0 else a = 0xED)

/-- The second of four bytes: a continuation byte, not after `F0` if it is below `90` (overlong forms), not after `F4` otherwise
(above `10FFFF`). -/
def isSecond4 (a : Nat) (b : UInt8) : Bool := isCont b && !(if b.toNat < 0x90 then a = 0xF0 else a = 0xF4)

/-- One step of `utf8_decode`, at the byte `b` followed by `rest`: the character, or `none` for an error; and how many more
bytes it takes up. -/
def utf8Step (b : UInt8) (rest : List UInt8) : Option Char × Nat :=
  let a := b.toNat
  if a < 0x80 then (some (Char.ofNat a), 0)
  -- a continuation byte, or the start of an overlong form: invalid start byte
  else if a < 0xC2 then (none, 0)
  else if a < 0xE0 then
    match rest with
    | [] => (none, 0)
    | b1 :: _ =>
      if isCont b1 then (some (Char.ofNat ((a - 0xC0) * 64 + (b1.toNat - 0x80))), 1) else (none, 0)
  else if a < 0xF0 then
    match rest with
    | [] => (none, 0)
    | b1 :: r =>
      if isSecond3 a b1 then
        match r with
        | [] => (none, 1)
        | b2 :: _ =>
          if isCont b2 then
            (some (Char.ofNat ((a - 0xE0) * 4096 + (b1.toNat - 0x80) * 64 + (b2.toNat - 0x80))), 2)
          else (none, 1)
      else (none, 0)
  else if a < 0xF5 then
    match rest with
    | [] => (none, 0)
    | b1 :: r =>
      if isSecond4 a b1 then
        match r with
        | [] => (none, 1)
        | b2 :: r =>
          if isCont b2 then
            match r with
            | [] => (none, 2)
            | b3 :: _ =>
              if isCont b3 then
                (some (Char.ofNat ((a - 0xF0) * 262144 + (b1.toNat - 0x80) * 4096 + (b2.toNat - 0x80) * 64 +
                  (b3.toNat - 0x80))), 3)
              else (none, 2)
          else (none, 1)
      else (none, 0)
  else (none, 0)

/-- `bytes.decode("utf-8", errors="ignore")` after skipping some bytes. -/
def decodeFrom : Nat → List UInt8 → Str
  | _, [] => []
  | k + 1, _ :: bs => decodeFrom k bs
  | 0, b :: bs =>
    match utf8Step b bs with
    | (some c, n) => c :: decodeFrom n bs
    | (none, n) => decodeFrom n bs

/-- `bytes.decode("utf-8", errors="ignore")`. -/
def decodeIgnore (bs : List UInt8) : Str := decodeFrom 0 bs

/-- `bytes.decode("utf-8")` after skipping some bytes; `none` is a UnicodeDecodeError. -/
def decodeStrictFrom : Nat → List UInt8 → Option Str
  | _, [] => some []
  | k + 1, _ :: bs => decodeStrictFrom k bs
  | 0, b :: bs =>
    match utf8Step b bs with
    | (some c, n) => (decodeStrictFrom n bs).map (c :: ·)
    | (none, _) => none

/-- `bytes.decode("utf-8")`. -/
def decodeStrict (bs : List UInt8) : Option Str := decodeStrictFrom 0 bs

/-- `str.encode("utf-8")`, as in `wildcards/collection/text_file.py:46`.  (A Python string can contain surrogates, which
cannot be encoded; the strings of the model cannot.) -/
def encodeUtf8 (s : Str) : List UInt8 := s.flatMap String.utf8EncodeChar

/-- Models `wildcards/collection/text_file.py:31-33`: the values in a text file. -/
def byteValues (bs : List UInt8) : List Str := textValues (decodeIgnore bs)

/-- Models `wildcards/collection/text_file.py:36-40` `read_text`. -/
def byteText (bs : List UInt8) : Str := universalNewlines (decodeIgnore bs)

/-! ## A file system with bytes -/

/-- The bytes of a file. -/
abbrev Bytes := List UInt8

/-- Models `wildcards/tree/build.py:28-55` `_get_wildcard_collections_from_path`: `structured.py:102` decodes strictly, and
the exception is caught at `build.py:50`. -/
def byteCollections (lib : Lib) (root rel : Path) (contents : Option Bytes) : List (Str × RawColl) :=
  fileCollections lib root rel (contents.bind decodeStrict)

/-- Models `wildcards/tree/build.py:58-75` `build_tree_from_path`. -/
def byteDirMap (lib : Lib) (fs : FTree Bytes) (root : Path) : Dict RawColl :=
  match fs.at root with
  | none => []
  | some d => (walkNode [] d).foldl (fun m f => m.update (byteCollections lib root f.1 f.2)) []

/-- Models `wildcards/tree/build.py:94-100` `_mappingify_item`. -/
def byteRootItemMap (lib : Lib) (fs : FTree Bytes) : RootItem → Dict RawColl
  | .path p =>
    match fs.at p with
    | some (.dir _) => byteDirMap lib fs p
    | _ => []
  | .dict d => d.map fun q => (q.1, .items q.2)

/-- Models `wildcards/tree/build.py:78-85` `build_tree_from_root_map`. -/
def byteRootMapColls (lib : Lib) (fs : FTree Bytes) (roots : RootMap) : Dict RawColl :=
  Dict.update [] (roots.flatMap fun r => r.2.flatMap fun item =>
    (byteRootItemMap lib fs item).map fun q => (combineNameParts [r.1, q.1], q.2))

/-- The text of a text file, as `wildcards/collection/text_file.py:31,40` reads it. -/
def byteRead (fs : FTree Bytes) (p : Path) : Option Str := (fs.read p).map decodeIgnore

end Verif
