import Verif.Spec.Cycle
import Verif.Spec.Lists
/-!
# Sequences with parts marked cyclical

What the tokens of prompt number `i` (counted from 0) show, when some tokens of a sequence are marked
cyclical (`@`) or random (`~`).
-/

namespace Verif.Spec
open Verif
variable {W : Type}

/-- One prompt of a random or cyclical sequence: a token marked cyclical is at its position `i`
(`f c i`), every other token shows one of its texts. -/
inductive ShowsAt (E : Env W) (vars : List (Str × Cmd)) (f : Cmd → Nat → Str) (i : Nat) :
    List Cmd → List Str → Prop
  | nil : ShowsAt E vars f i [] []
  | cyclical {c cs strs} : c.method = some .cyc → ShowsAt E vars f i cs strs →
      ShowsAt E vars f i (c :: cs) (f c i :: strs)
  | other {c cs x strs} : c.method ≠ some .cyc → Lang E vars c x → ShowsAt E vars f i cs strs →
      ShowsAt E vars f i (c :: cs) (x :: strs)

/-- One prompt of a combinatorial sequence with tokens `all`: the finite tokens show the texts of the
combination `t`, in turn; a token marked random shows one of its texts; a token marked cyclical moves
on by one per prompt.  Equal cyclical tokens share one stream of texts, which they draw from in turn,
the rightmost one first. -/
inductive ShowsCombination (E : Env W) (vars : List (Str × Cmd)) (f : Cmd → Nat → Str)
    (all : List Cmd) (i : Nat) : List Cmd → List Str → List Str → Prop
  | nil : ShowsCombination E vars f all i [] [] []
  | finite {c cs x t strs} : Finite c.method → ShowsCombination E vars f all i cs t strs →
      ShowsCombination E vars f all i (c :: cs) (x :: t) (x :: strs)
  | cyclical {c cs t strs} : c.method = some .cyc → ShowsCombination E vars f all i cs t strs →
      ShowsCombination E vars f all i (c :: cs) t (f c (i * all.count c + cs.count c) :: strs)
  | random {c cs x t strs} : c.method = some .random → Lang E vars c x →
      ShowsCombination E vars f all i cs t strs →
      ShowsCombination E vars f all i (c :: cs) t (x :: strs)

end Verif.Spec
