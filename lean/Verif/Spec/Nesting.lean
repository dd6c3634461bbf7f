import Verif.Spec.Variables
/-!
# Specifications for nesting of methods and scoping of variables
-/

namespace Verif.Spec
open Verif
variable {W : Type}

/-- The generator state belongs to the combinatorial sampler. -/
def isCombinatorial : Gen → Bool
  | .start ctx _ => ctx.method = .comb
  | .combSeq .. => true
  | .combVar .. => true
  | .combVarIn .. => true
  | .combWild .. => true
  | .combWrap .. => true
  | .combWrapIn .. => true
  | _ => false

/-- The engine with a combinatorial sampler that always raises NotImplementedError, instead of the
real one. -/
def brokenRecs (E : Env W) : Nat → Recs W
  | 0 => ⟨fun _ => M.diverge, fun _ => M.diverge, fun _ _ => M.diverge, fun _ => M.diverge⟩
  | n + 1 =>
    ⟨fun g => if isCombinatorial g then M.raise .notImplemented else stepG E (brokenRecs E n) g,
     stepA E (brokenRecs E n),
     fun _ _ => M.raise .notImplemented,
     fun _ => M.raise .notImplemented⟩

/-- `islice(g, k)` in the engine without combinatorial sampler. -/
def brokenCollect (E : Env W) (n : Nat) : Nat → Gen → W → List Str × Stop W
  | 0, g, w => ([], .limit g w)
  | k + 1, g, w =>
    match (brokenRecs E n).G g w with
    | .ok none w' => ([], .stop w')
    | .ok (some (v, g')) w' => let r := brokenCollect E n k g' w'; (v :: r.1, r.2)
    | .err e w' => ([], .raised e w')
    | .fuel => ([], .fuel)

/-- `sample_prompts(prompt, k)` in the engine without combinatorial sampler. -/
def brokenSamplePrompts (E : Env W) (n : Nat) (ctx : Ctx) (p : Prompt) (k : Nat) (w : W) :
    List Str × Stop W :=
  match sampleGen E ctx p with
  | .error e => ([], .raised e w)
  | .ok g => brokenCollect E n k g w

/-- `vs` are the texts given by successive `next` calls on `g`, other code possibly running in
between (so each call finds an arbitrary world). -/
inductive Trace (E : Env W) (n : Nat) : Gen → List Str → Prop
  | nil {g} : Trace E n g []
  | cons {g v g' vs w w'} : nextG E n g w = .ok (some (v, g')) w' → Trace E n g' vs →
      Trace E n g (v :: vs)

end Verif.Spec
