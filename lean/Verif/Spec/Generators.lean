import Verif.Model.Generators
/-!
# Specifications for the prompt generators that wrap others
-/

namespace Verif.Spec
open Verif
variable {W : Type}

/-- `inner` is run `k` times in a row, in the world each run leaves, and all succeed. -/
inductive Consecutive {α : Type} (inner : M W α) : Nat → W → List α → W → Prop
  | zero {w} : Consecutive inner 0 w [] w
  | succ {k w r w1 rs w2} : inner w = .ok r w1 → Consecutive inner k w1 rs w2 →
      Consecutive inner (k + 1) w (r :: rs) w2

/-- `sel` are the elements of `l` at pairwise different positions, in the order of `pos`. -/
def SelectedAt {α : Type} (l : List α) (pos : List Nat) (sel : List α) : Prop :=
  pos.Nodup ∧ pos.map (fun i => l[i]?) = sel.map some

/-- `a` is lexicographically before `b` (lists of the same length). -/
inductive LexLt : List Nat → List Nat → Prop
  | head {x y xs ys} : x < y → LexLt (x :: xs) (y :: ys)
  | tail {x xs ys} : LexLt xs ys → LexLt (x :: xs) (x :: ys)

/-- `t` contains `s` as a consecutive part. -/
def Occurs (s t : Str) : Prop := ∃ a b, t = a ++ s ++ b

/-- Every occurrence of `pat` (from the left, without overlaps) is replaced by `new`: the text between
the occurrences stays, and no earlier occurrence is skipped. -/
inductive Replaced (pat new : Str) : Str → Str → Prop
  | none {s} : ¬ Occurs pat s → Replaced pat new s s
  | one {a b b'} : (∀ x y, a ++ pat ++ b = x ++ pat ++ y → a.length ≤ x.length) →
      Replaced pat new b b' → Replaced pat new (a ++ pat ++ b) (a ++ new ++ b')

/-- `parts` with `sep` between them. -/
def joinWith (sep : Str) : List Str → Str
  | [] => []
  | [p] => p
  | p :: ps => p ++ sep ++ joinWith sep ps

/-- A phrase: words with white space between them, without underscores. `isWord` is the class `\w`. -/
structure Phrase (isWord : Char → Bool) (p : Str) : Prop where
  first : ∃ c, p.head? = some c ∧ isWord c = true
  final : ∃ c, p.getLast? = some c ∧ isWord c = true
  chars : ∀ c ∈ p, (isWord c = true ∨ isSpace c = true) ∧ c ≠ '_'

/-- `a` is a shorter list, or one of the same length that is lexicographically before `b`. -/
def ShortLexLt (a b : List Nat) : Prop :=
  a.length < b.length ∨ (a.length = b.length ∧ LexLt a b)

/-- Regeneration of the blocked prompts: in each round the model is asked once more, for the originals
of exactly the positions that are blocked now, and its answers are put at these positions; all
others stay. `Rounds … n before w after w'`: `n` rounds. -/
inductive Rounds (blocked : Str → Bool) (batch : List Str → M W (List Str)) (origs : List Str) :
    Nat → List Str → W → List Str → W → Prop
  | stop {now w} : Rounds blocked batch origs 0 now w now w
  | again {n now next after asked answers w w1 w2} (at_ : List Nat) :
      at_ ≠ [] → at_.Pairwise (· < ·) →
      (∀ i, i ∈ at_ ↔ ∃ p, now[i]? = some p ∧ blocked p = true) →
      asked.map some = at_.map (fun i => origs[i]?) →
      batch asked w = .ok answers w1 →
      next.length = now.length →
      (∀ i, i ∉ at_ → next[i]? = now[i]?) →
      at_.map (fun i => next[i]?) = answers.map some →
      Rounds blocked batch origs n next w1 after w2 →
      Rounds blocked batch origs (n + 1) now w after w2

/-- The model names the instances were last asked to use without an exception: `names` before the
operation. -/
def askedNames (names : List Str) : MagicOp → Bool → List Str
  | .new m _, raised => if raised then names else names ++ [m]
  | .set i m _, raised => if raised then names else names.set i m

/-- The request an operation makes: a model name, and whether loading that model would succeed. A call
on an instance that does not exist (there are `count`) is none. -/
def requestOf (count : Nat) : MagicOp → List (Str × Bool)
  | .new m ok => [(m, ok)]
  | .set i m ok => if i < count then [(m, ok)] else []

/-- A history of constructions and `set_model` calls: the state it leads to, the names the instances
were last asked to use, and all requests in order. -/
inductive MagicHistory : MagicState → List Str → List (Str × Bool) → Prop
  | start : MagicHistory MagicState.init [] []
  | step {s names reqs} (op : MagicOp) : MagicHistory s names reqs →
      MagicHistory (s.step op).1 (askedNames names op (s.step op).2)
        (reqs ++ requestOf names.length op)

/-- How often a model has to be loaded: every request for another name than the one before, if the
model can be loaded. -/
def loadsNeeded : Option Str → List (Str × Bool) → Nat
  | _, [] => 0
  | prev, (m, ok) :: reqs =>
    (if prev ≠ some m ∧ ok = true then 1 else 0) + loadsNeeded (some m) reqs

/-- The first request of the last run of requests for one and the same model name (`cur`: the first of
the run before these requests). -/
def runStart : Option (Str × Bool) → List (Str × Bool) → Option (Str × Bool)
  | cur, [] => cur
  | cur, r :: rs => runStart (if cur.map (·.1) = some r.1 then cur else some r) rs

/-- The pipeline that goes with the last of some requests: the one loaded at the beginning of the run of
requests for that name (it is the last one that was loaded at all), none if it could not be loaded
then. -/
def pipelineFor (rs : List (Str × Bool)) : Option (Str × Nat) :=
  match runStart none rs with
  | some (m, true) => some (m, loadsNeeded none rs - 1)
  | _ => none

/-- What has been asked: all requests, and for each instance those up to the one it was last served by. -/
structure Asked where
  reqs : List (Str × Bool)
  served : List (List (Str × Bool))
deriving DecidableEq

/-- A request raises an exception if the model is another one than that of the request before and cannot
be loaded. -/
def Refused (reqs : List (Str × Bool)) (m : Str) (ok : Bool) : Prop :=
  reqs.getLast?.map (·.1) ≠ some m ∧ ok = false

instance (reqs m ok) : Decidable (Refused reqs m ok) := by unfold Refused; infer_instance

/-- One more operation. -/
def Asked.step (a : Asked) : MagicOp → Asked
  | .new m ok => ⟨a.reqs ++ [(m, ok)],
      if Refused a.reqs m ok then a.served else a.served ++ [a.reqs ++ [(m, ok)]]⟩
  | .set i m ok =>
    if i < a.served.length then
      ⟨a.reqs ++ [(m, ok)],
        if Refused a.reqs m ok then a.served else a.served.set i (a.reqs ++ [(m, ok)])⟩
    else a

/-- Whether an operation raises. -/
def Asked.raises (a : Asked) : MagicOp → Prop
  | .new m ok => Refused a.reqs m ok
  | .set i m ok => i < a.served.length → Refused a.reqs m ok

end Verif.Spec
