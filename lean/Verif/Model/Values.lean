import Verif.Model.Manager
/-!
# Wildcard values as a collection (`src/dynamicprompts/wildcards/values.py`) and the commands made by
code (`src/dynamicprompts/commands/`)
-/

namespace Verif

/-- Models Python's `t[i]` for a tuple or a list and a whole number: negative numbers count from the end,
IndexError outside. Used by `wildcards/values.py:26-27` `__getitem__`,
`commands/variant_command.py:37-38` and `commands/sequence_command.py:18-19`. -/
def pyIndex {α : Type} (l : List α) (i : Int) : Except Err α :=
  let j := if i < 0 then i + l.length else i
  if j < 0 then .error .index
  else match l[j.toNat]? with
    | some a => .ok a
    | none => .error .index

/-- Models `wildcards/values.py:59-64` `string_values` (`str` of an item is its text,
`wildcards/item.py:9-11`). -/
def stringValues (items : List Item) : List Str := items.map Item.content

/-- Models `wildcards/values.py:35-41` `__add__` of two collections, through `from_items` (`:86-90`). -/
def addValues (a b : List Item) : List Item := a ++ b

/-- Models `wildcards/values.py:77-83` `shuffled` with the given random numbers. -/
def shuffledValues {R : Type} (r : Rng R) (items : List Item) (w : R) : List Item × R := r.shuffle items w

/-- Models `wildcards/wildcard_manager.py:150-157` `get_all_values`; the warning is left out. -/
def Mgr.getAllValues {R : Type} (cfg : MgrCfg R) (w : Str) : M (Mgr R) (List Str) := do
  let values ← Mgr.getValues cfg w
  return stringValues values

/-- Models `commands/variant_command.py:56-76` `from_literals_and_weights`; `none` is the AssertionError
for lists of different length. -/
def variantFromLiterals (literals : List Str) (weights : Option (List Rat)) (lo hi : Int) (sep : Str)
    (m : Option Method) : Option Cmd :=
  let vals := literals.map fun v => Cmd.lit v none
  let weights := weights.getD (List.replicate vals.length 1)
  if vals.length = weights.length then some (.mkVariant (vals.zip weights) lo hi sep m) else none

/-- Models `commands/sequence_command.py:29-46` `from_literals`: texts become literals, commands stay. -/
def sequenceFromLiterals (values : List (Str ⊕ Cmd)) (sep : Str) (m : Option Method) : Cmd :=
  .seq (values.map fun
    | .inl v => .lit v m
    | .inr c => c) sep m

/-- Models `commands/literal_command.py:14-17` `__add__`; `none` is the TypeError. The sampling method is
not kept. -/
def Cmd.add : Cmd → Cmd → Option Cmd
  | .lit a _, .lit b _ => some (.lit (a ++ c!" " ++ b) none)
  | _, _ => none

/-- Models `commands/variant_command.py:47-49` `values`. -/
def Cmd.values : Cmd → List Cmd
  | .variant opts _ _ _ _ => opts.map (·.1)
  | _ => []

/-- Models `commands/variant_command.py:43-45` `weights`. -/
def Cmd.weights : Cmd → List Rat
  | .variant opts _ _ _ _ => opts.map (·.2)
  | _ => []

end Verif
