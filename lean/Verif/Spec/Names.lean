import Verif.Py.Str
/-!
# Specification of wildcard names and patterns
-/

namespace Verif.Spec
open Verif

/-- A path separator as users write it: slash or backslash. -/
def Separator (c : Char) : Prop := c = '/' ∨ c = '\\'

/-- `Spells s segs`: the text `s` consists of the segments `segs` (non-empty, without separators),
in order, separated by one or more separators, and possibly surrounded by separators. -/
inductive Spells : Str → List Str → Prop
  | nil : Spells [] []
  | sep {c s segs} : Separator c → Spells s segs → Spells (c :: s) segs
  | last {seg} : seg ≠ [] → (∀ c ∈ seg, ¬ Separator c) → Spells seg [seg]
  | seg {seg c s segs} : seg ≠ [] → (∀ c ∈ seg, ¬ Separator c) → Separator c → Spells s segs →
      Spells (seg ++ c :: s) (seg :: segs)

/-- `Unwraps wrap w body`: `body` is `w` without one leading and one trailing `wrap`, where `w` has
them. The trailing one is looked for in what is left after the leading one has been removed. -/
def Unwraps (wrap w body : Str) : Prop :=
  ∃ mid, (w = wrap ++ mid ∨ (¬ wrap <+: w ∧ mid = w)) ∧
    (mid = body ++ wrap ∨ (¬ wrap <:+ mid ∧ body = mid))

/-- A canonical wildcard name: no `..`, no backslash, no doubled, leading or trailing slash. -/
def CanonicalName (n : Str) : Prop :=
  ¬ ['.', '.'] <:+: n ∧ '\\' ∉ n ∧ ¬ ['/', '/'] <:+: n ∧ ¬ ['/'] <+: n ∧ ¬ ['/'] <:+ n

/-- `Members cs rs`: the text `cs` between brackets lists the ranges `rs`: single characters (a range of one),
`x-y`, and possibly `-` at the end. Ranges that are out of order and brackets between the brackets are left
out. -/
inductive Members : Str → List (Char × Char) → Prop
  | nil : Members [] []
  | hyphen : Members ['-'] [('-', '-')]
  | one {c cs rs} : c ≠ '-' → c ≠ ']' → Members cs rs → Members (c :: cs) ((c, c) :: rs)
  | range {x y cs rs} : x ≠ '-' → x ≠ ']' → y ≠ ']' → x.toNat ≤ y.toNat → Members cs rs →
      Members (x :: '-' :: y :: cs) ((x, y) :: rs)

/-- The same, where `-` may also be the first character. -/
inductive Inside : Str → List (Char × Char) → Prop
  | members {cs rs} : Members cs rs → Inside cs rs
  | hyphen {cs rs} : Members cs rs → Inside ('-' :: cs) (('-', '-') :: rs)

/-- The character is in one of the ranges. -/
def InRanges (rs : List (Char × Char)) (c : Char) : Prop := ∃ r ∈ rs, r.1.toNat ≤ c.toNat ∧ c.toNat ≤ r.2.toNat

/-- `Glob pat name`: the shell pattern `pat` matches all of `name`. `*` is any text, `?` any
character, `[abx-z]` one of the listed characters, `[!abx-z]` any other character; all other
characters stand for themselves, also a `[` that is never closed. -/
inductive Glob : Str → Str → Prop
  | nil : Glob [] []
  | star {p s t} : Glob p t → Glob ('*' :: p) (s ++ t)
  | any {p c t} : Glob p t → Glob ('?' :: p) (c :: t)
  | lit {p c t} : c ≠ '*' → c ≠ '?' → c ≠ '[' → Glob p t → Glob (c :: p) (c :: t)
  | bracket {cs rs p c t} : Inside cs rs → cs.head? ≠ some '!' → InRanges rs c → Glob p t →
      Glob ('[' :: cs ++ ']' :: p) (c :: t)
  | negated {cs rs p c t} : cs ≠ [] → Inside cs rs → ¬ InRanges rs c → Glob p t →
      Glob ('[' :: '!' :: cs ++ ']' :: p) (c :: t)
  | unclosed {p t} : ']' ∉ p → Glob p t → Glob ('[' :: p) ('[' :: t)

/-- Patterns `Glob` speaks about completely: after every `[` there is no `]` at all, or a list of
characters and ranges (not empty), possibly after `!`, and then `]`. -/
inductive SimplePattern : Str → Prop
  | nil : SimplePattern []
  | char {c p} : c ≠ '[' → SimplePattern p → SimplePattern (c :: p)
  | unclosed {p} : ']' ∉ p → SimplePattern p → SimplePattern ('[' :: p)
  | bracket {cs rs p} : cs ≠ [] → Inside cs rs → cs.head? ≠ some '!' → SimplePattern p →
      SimplePattern ('[' :: cs ++ ']' :: p)
  | negated {cs rs p} : cs ≠ [] → Inside cs rs → SimplePattern p → SimplePattern ('[' :: '!' :: cs ++ ']' :: p)

end Verif.Spec
