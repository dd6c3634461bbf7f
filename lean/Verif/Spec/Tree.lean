import Verif.Model.Manager
/-!
# Specification of the wildcard tree and of qualified names
-/

namespace Verif.Spec
open Verif

/-- A name without leading, trailing or doubled slashes. -/
def TidyName (n : Str) : Prop := ¬ ['/', '/'] <:+: n ∧ ¬ ['/'] <+: n ∧ ¬ ['/'] <:+ n

/-- `Reaches n parts c`: starting at the node `n`, going down the child nodes named by all parts but
the last, one finds the collection `c` under the last part. -/
inductive Reaches {α : Type} : TreeNode α → List Str → α → Prop
  | here {path ch colls k c} : (k, c) ∈ colls → Reaches (.mk path ch colls) [k] c
  | down {path ch colls k n parts c} : (k, n) ∈ ch → Reaches n parts c →
      Reaches (.mk path ch colls) (k :: parts) c

/-- The name a collection `k` gets under the prefix `p`: `p/k`, or just the one of the two that is
not empty. -/
def Qualified (p k n : Str) : Prop :=
  (p = [] ∧ n = k) ∨ (k = [] ∧ n = p) ∨ (p ≠ [] ∧ k ≠ [] ∧ n = p ++ '/' :: k)

end Verif.Spec
