import Verif.Spec.Text
import Verif.Model.Files
/-!
# Specification of wildcard files

The document type `J`, the items and the library functions are those of the model; the functions
that read files are not used.
-/

namespace Verif.Spec
open Verif

/-! ## Text files -/

/-- `Lines c ls`: the text `c` consists of the lines `ls`, ended by newline, carriage return, or
both; the last one (possibly empty) has no ending. -/
inductive Lines : Str → List Str → Prop
  | last {l} : '\n' ∉ l → '\r' ∉ l → Lines l [l]
  | nl {l r ls} : '\n' ∉ l → '\r' ∉ l → Lines r ls → Lines (l ++ '\n' :: r) (l :: ls)
  | cr {l r ls} : '\n' ∉ l → '\r' ∉ l → r.head? ≠ some '\n' → Lines r ls →
      Lines (l ++ '\r' :: r) (l :: ls)
  | crlf {l r ls} : '\n' ∉ l → '\r' ∉ l → Lines r ls → Lines (l ++ '\r' :: '\n' :: r) (l :: ls)

/-- `Stripped l t`: `t` is `l` without the whitespace around it. -/
def Stripped (l t : Str) : Prop :=
  ∃ a b, l = a ++ t ++ b ∧ Blank a ∧ Blank b ∧
    (∀ c, t.head? = some c → isSpace c = false) ∧ (∀ c, t.getLast? = some c → isSpace c = false)

/-- `TextEntries ls vs`: `vs` are the lines `ls`, stripped, in order, without blank lines and
comments. -/
inductive TextEntries : List Str → List Str → Prop
  | nil : TextEntries [] []
  | blank {l ls vs} : Blank l → TextEntries ls vs → TextEntries (l :: ls) vs
  | comment {l t ls vs} : Stripped l ('#' :: t) → TextEntries ls vs → TextEntries (l :: ls) vs
  | entry {l t ls vs} : Stripped l t → t ≠ [] → t.head? ≠ some '#' → TextEntries ls vs →
      TextEntries (l :: ls) (t :: vs)

/-! ## Structured files -/

/-- Values counted as empty. -/
inductive Empty : J → Prop
  | null : Empty .null
  | false : Empty (.bool false)
  | zero : Empty (.num 0)
  | str : Empty (.str [])
  | list : Empty (.list [])
  | dict : Empty (.dict [])

/-- `First d k v`: the entry of key `k` in a dictionary. -/
inductive First : List (Option Str × J) → Str → J → Prop
  | here {k v d} : First ((some k, v) :: d) k v
  | there {k k' v v' d} : k' ≠ some k → First d k v → First ((k', v') :: d) k v

/-- The dictionary has no such key. -/
def Missing (d : List (Option Str × J)) (k : Str) : Prop := ∀ v, (some k, v) ∉ d

/-- The number a document value stands for. -/
inductive Number (lib : Lib) : J → Rat → Prop
  | num {q} : Number lib (.num q) q
  | yes : Number lib (.bool true) 1
  | no : Number lib (.bool false) 0
  | str {s q} : lib.float s = some q → Number lib (.str s) q

/-- The weight of a dictionary entry: its `weight`, or 1. -/
inductive Weight (lib : Lib) (d : List (Option Str × J)) : Rat → Prop
  | given {v q} : First d c!"weight" v → Number lib v q → Weight lib d q
  | absent : Missing d c!"weight" → Weight lib d 1

/-- The content of a dictionary entry: a non-empty `text`, or else a non-empty `content`. -/
inductive Content (d : List (Option Str × J)) : J → Prop
  | text {v} : First d c!"text" v → ¬ Empty v → Content d v
  | content {v} : (∀ u, First d c!"text" u → Empty u) → First d c!"content" v → ¬ Empty v → Content d v

/-- A content as text. -/
def contentText (lib : Lib) : J → Str
  | .str s => s
  | v => lib.strOf v

/-- `weight::content` with the last possible `::`, a digit in front and a weight that is a number. -/
def Weighted (lib : Lib) (s : Str) (q : Rat) (content : Str) : Prop :=
  ∃ w c, s = w ++ ':' :: ':' :: content ∧ ¬ [':', ':'] <:+: ':' :: content ∧
    s.head? = some c ∧ lib.isDigit c = true ∧ lib.float w = some q

/-- `Entries lib l is`: the list `l` of a structured file holds the items `is`. -/
inductive Entries (lib : Lib) : List J → List Item → Prop
  | nil : Entries lib [] []
  | empty {j l is} : Empty j → Entries lib l is → Entries lib (j :: l) is
  | weighted {s q content l is} : Weighted lib s q content → Entries lib l is →
      Entries lib (.str s :: l) (⟨content, some q⟩ :: is)
  | plain {s l is} : s ≠ [] → (∀ q content, ¬ Weighted lib s q content) → Entries lib l is →
      Entries lib (.str s :: l) (⟨s, none⟩ :: is)
  | dictWeighted {d q v l is} : d ≠ [] → Weight lib d q → q ≠ 1 → Content d v → Entries lib l is →
      Entries lib (.dict d :: l) (⟨contentText lib v, some q⟩ :: is)
  | dictPlain {d v l is} : d ≠ [] → Weight lib d 1 → Content d v → Entries lib l is →
      Entries lib (.dict d :: l) (⟨contentText lib v, none⟩ :: is)
  | dictEmpty {d q l is} : d ≠ [] → Weight lib d q → (∀ v, ¬ Content d v) → Entries lib l is →
      Entries lib (.dict d :: l) is
  | number {q l is} : Entries lib l is → Entries lib (.num q :: l) is
  | bool {b l is} : Entries lib l is → Entries lib (.bool b :: l) is
  | list {l' l is} : Entries lib l is → Entries lib (.list l' :: l) is

/-- The lists (or non-empty strings, as lists of one) of a document with their key paths, in
document order. Keys that are not strings and values that are neither lists, strings nor
dictionaries are passed over. -/
inductive KeyLists : List (Option Str × J) → List (List Str × List J) → Prop
  | nil : KeyLists [] []
  | otherKey {v d ls} : KeyLists d ls → KeyLists ((none, v) :: d) ls
  | null {k d ls} : KeyLists d ls → KeyLists ((some k, .null) :: d) ls
  | bool {k b d ls} : KeyLists d ls → KeyLists ((some k, .bool b) :: d) ls
  | num {k q d ls} : KeyLists d ls → KeyLists ((some k, .num q) :: d) ls
  | emptyStr {k d ls} : KeyLists d ls → KeyLists ((some k, .str []) :: d) ls
  | emptyList {k d ls} : KeyLists d ls → KeyLists ((some k, .list []) :: d) ls
  | str {k s d ls} : s ≠ [] → KeyLists d ls → KeyLists ((some k, .str s) :: d) (([k], [.str s]) :: ls)
  | list {k l d ls} : l ≠ [] → KeyLists d ls → KeyLists ((some k, .list l) :: d) (([k], l) :: ls)
  | dict {k d' ls' d ls} : KeyLists d' ls' → KeyLists d ls →
      KeyLists ((some k, .dict d') :: d) (ls'.map (fun p => (k :: p.1, p.2)) ++ ls)

/-- A list that cannot be read: it holds a dictionary whose weight is not a number. -/
def BadWeight (lib : Lib) (l : List J) : Prop :=
  ∃ d, .dict d ∈ l ∧ d ≠ [] ∧ ∀ q, ¬ Weight lib d q

/-- `Collections lib ls out`: reading the lists `ls` gives the named collections `out`; a list that
cannot be read is passed over, the others are named by their slash-joined key path. -/
inductive Collections (lib : Lib) : List (List Str × List J) → List (Str × List Item) → Prop
  | nil : Collections lib [] []
  | bad {p l ls out} : BadWeight lib l → Collections lib ls out → Collections lib ((p, l) :: ls) out
  | good {p l is ls out} : Entries lib l is → Collections lib ls out →
      Collections lib ((p, l) :: ls) ((List.intercalate ['/'] p, is) :: out)

end Verif.Spec
