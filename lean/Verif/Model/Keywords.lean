import Verif.Model.Generators
/-!
# The keyword finder of the attention generator

`generators/attentiongenerator.py:36-72`: which keyword finder is used, and the two caches
(`functools.lru_cache`) around it.  The library spaCy is arbitrary.
-/

namespace Verif

/-- An exception raised by spaCy or by importing it: the kinds the code tells apart, and all others. -/
inductive LibErr where
  | importError
  | osError
  | other (n : Nat)
deriving DecidableEq

/-- spaCy: what importing, loading a model, downloading a model and using a loaded model do, with the state `X` of
everything outside of the process. `Nlp` are the loaded models. -/
structure Spacy (Nlp X : Type) where
  /-- `import spacy` -/
  importSpacy : X → Except LibErr Unit × X
  /-- `spacy.load(name)` -/
  load : X → Except LibErr Nlp × X
  /-- `from spacy.cli.download import download` -/
  importDownload : X → Except LibErr Unit × X
  /-- `download(name)` -/
  download : X → Except LibErr Unit × X
  /-- `[str(chunk) for chunk in nlp(prompt).noun_chunks]` -/
  chunks : Nlp → Str → X → Except LibErr (List Str) × X

variable {Nlp X : Type}

/-- Models `generators/attentiongenerator.py:36-48` `get_spacy_chunker`: the model loaded last. -/
def getSpacyChunker (S : Spacy Nlp X) (x : X) : Except LibErr Nlp × X :=
  match S.importSpacy x with
  | (.error e, x) => (.error e, x)
  | (.ok (), x) =>
    match S.load x with
    | (.ok _, x) => S.load x
    | (.error .osError, x) =>
      match S.importDownload x with
      | (.error e, x) => (.error e, x)
      | (.ok (), x) =>
        match S.download x with
        | (.error e, x) => (.error e, x)
        | (.ok (), x) => S.load x
    | (.error e, x) => (.error e, x)

/-- A keyword finder: `cheap_chunker`, or the function made by `get_spacy_chunker`. -/
inductive Finder (Nlp : Type) where
  | cheap
  | spacy (nlp : Nlp)

/-- The two caches: the finder (`lru_cache(maxsize=1)`, `:51`) and the keywords of the texts asked for last, the last
one first (`lru_cache(maxsize=10)`, `:66`). -/
structure KwCache (Nlp : Type) where
  finder : Option (Finder Nlp)
  memo : List (Str × List Str)

/-- Models `generators/attentiongenerator.py:51-63` `get_chunker`.  An exception is not cached. -/
def getChunker (S : Spacy Nlp X) (c : KwCache Nlp) (x : X) : Except LibErr (Finder Nlp) × KwCache Nlp × X :=
  match c.finder with
  | some f => (.ok f, c, x)
  | none =>
    match getSpacyChunker S x with
    | (.ok nlp, x) => (.ok (.spacy nlp), { c with finder := some (.spacy nlp) }, x)
    | (.error .importError, x) => (.ok .cheap, { c with finder := some .cheap }, x)
    | (.error e, x) => (.error e, c, x)

/-- A keyword finder applied to a text. -/
def Finder.find (S : Spacy Nlp X) (isDigit : Char → Bool) (f : Finder Nlp) (text : Str) (x : X) :
    Except LibErr (List Str) × X :=
  match f with
  | .cheap => (.ok (cheapChunker isDigit text), x)
  | .spacy nlp => S.chunks nlp text x

/-- Models `generators/attentiongenerator.py:66-72` `find_noun_chunks`.  A text that is in the cache becomes the one
asked for last; a new one is added and the oldest of more than ten is dropped (CPython `functools.py`). -/
def findNounChunks (S : Spacy Nlp X) (isDigit : Char → Bool) (text : Str) (c : KwCache Nlp) (x : X) :
    Except LibErr (List Str) × KwCache Nlp × X :=
  match c.memo.lookup text with
  | some ks => (.ok ks, { c with memo := (text, ks) :: c.memo.filter (fun q => q.1 ≠ text) }, x)
  | none =>
    match getChunker S c x with
    | (.error e, c, x) => (.error e, c, x)
    | (.ok f, c, x) =>
      match f.find S isDigit text x with
      | (.error e, x) => (.error e, c, x)
      | (.ok ks, x) => (.ok ks, { c with memo := ((text, ks) :: c.memo).take 10 }, x)

/-- A history of calls of `find_noun_chunks`. -/
def findAll (S : Spacy Nlp X) (isDigit : Char → Bool) :
    List Str → KwCache Nlp → X → List (Except LibErr (List Str)) × KwCache Nlp × X
  | [], c, x => ([], c, x)
  | t :: ts, c, x =>
    let r := findNounChunks S isDigit t c x
    let rest := findAll S isDigit ts r.2.1 r.2.2
    (r.1 :: rest.1, rest.2)

end Verif
