import Verif.Model.Bytes
import Verif.Model.Monad
/-!
# Text files in other encodings (`wildcards/collection/text_file.py`)

A `WildcardTextFile` can be made with any encoding.  Here the objects stand by themselves, on a disk with bytes that others can write to.
-/

namespace Verif

/-- An encoding known to Python: `bytes.decode(encoding, errors="ignore")`, and `str.encode(encoding)`, where `none` is a
UnicodeEncodeError.  (Reading in chunks is not modelled.  An encoding Python does not know is not represented.) -/
structure Codec where
  decode : Bytes → Str
  encode : Str → Option Bytes

/-- Models `src/dynamicprompts/constants.py` `DEFAULT_ENCODING`, the default of `wildcards/collection/text_file.py:18`.  (The strings of the
model have no surrogates, which cannot be encoded.) -/
def Codec.utf8 : Codec := ⟨decodeIgnore, fun s => some (encodeUtf8 s)⟩

/-- The encoding `"ascii"`. -/
def Codec.ascii : Codec where
  decode bs := (bs.filter fun b => b.toNat < 128).map fun b => Char.ofNat b.toNat
  encode s := if s.all fun c => c.toNat < 128 then some (s.map fun c => c.toNat.toUInt8) else none

/-- The encoding `"latin-1"`. -/
def Codec.latin1 : Codec where
  decode bs := bs.map fun b => Char.ofNat b.toNat
  encode s := if s.all fun c => c.toNat < 256 then some (s.map fun c => c.toNat.toUInt8) else none

/-- Models `wildcards/collection/text_file.py:15-22`: the attributes of a `WildcardTextFile`. -/
structure TextFile where
  path : Path
  codec : Codec
  cache : Option (List Str)

/-- Models `wildcards/collection/text_file.py:27-34` `get_values`. -/
def TextFile.values (fs : FTree Bytes) (f : TextFile) : Except Err (List Str) × TextFile :=
  match f.cache with
  | some vs => (.ok vs, f)
  | none =>
    match fs.read f.path with
    | none => (.error .os, f)
    | some bs => (.ok (textValues (f.codec.decode bs)), { f with cache := some (textValues (f.codec.decode bs)) })

/-- Models `wildcards/collection/text_file.py:36-40` `read_text`. -/
def TextFile.text (fs : FTree Bytes) (f : TextFile) : Except Err Str :=
  match fs.read f.path with
  | none => .error .os
  | some bs => .ok (universalNewlines (f.codec.decode bs))

/-- Models `wildcards/collection/text_file.py:42-47` `write_text`.  `Path.write_text` opens the file for writing, which empties it, and
then encodes the text (CPython `pathlib.py` `write_text`, `textio.c` `_io_TextIOWrapper_write_impl`): if that fails, a UnicodeEncodeError, which
is a ValueError, leaves the function before line 47. -/
def TextFile.writeText (fs : FTree Bytes) (f : TextFile) (contents : Str) : Except Err Unit × FTree Bytes × TextFile :=
  match fs.write [] f.path with
  | none => (.error .os, fs, f)
  | some emptied =>
    match f.codec.encode contents with
    | none => (.error .value, emptied, f)
    | some bs =>
      match emptied.write bs f.path with
      | none => (.error .os, emptied, f)
      | some fs' => (.ok (), fs', { f with cache := none })

/-- A disk and the collection objects in a process. -/
structure Desk where
  fs : FTree Bytes
  files : List TextFile

/-- What can happen: a method of one of the objects is called, or somebody else writes a file. -/
inductive TextCall where
  | values (i : Nat)
  | text (i : Nat)
  | write (i : Nat) (contents : Str)
  | edit (p : Path) (contents : Bytes)

/-- What the caller gets. -/
inductive TextAnswer where
  | values (l : List Str)
  | text (s : Str)
  | done
  | failed (e : Err)
deriving DecidableEq

/-- The methods of `wildcards/collection/text_file.py:27-47`, called on the objects of a desk. -/
def Desk.call (d : Desk) : TextCall → TextAnswer × Desk
  | .values i =>
    match d.files[i]? with
    | none => (.failed .index, d)
    | some f =>
      let r := f.values d.fs
      (match r.1 with | .ok l => .values l | .error e => .failed e, { d with files := d.files.set i r.2 })
  | .text i =>
    match d.files[i]? with
    | none => (.failed .index, d)
    | some f => (match f.text d.fs with | .ok s => .text s | .error e => .failed e, d)
  | .write i contents =>
    match d.files[i]? with
    | none => (.failed .index, d)
    | some f =>
      let r := f.writeText d.fs contents
      (match r.1 with | .ok _ => .done | .error e => .failed e, ⟨r.2.1, d.files.set i r.2.2⟩)
  | .edit p contents =>
    match d.fs.write contents p with
    | none => (.failed .os, d)
    | some fs' => (.done, { d with fs := fs' })

/-- What a call answers. -/
def Desk.answer (d : Desk) (c : TextCall) : TextAnswer := (d.call c).1

/-- The desk after some calls. -/
def Desk.after (d : Desk) : List TextCall → Desk
  | [] => d
  | c :: cs => (d.call c).2.after cs

end Verif
