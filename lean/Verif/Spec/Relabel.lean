import Verif.Spec.RandomFree
import Verif.Spec.Lone
import Verif.Spec.Proportions
import Verif.Spec.Syntax
/-!
# Renaming wildcards
-/

namespace Verif

mutual
/-- The command in which every wildcard name `t` that is written as text is replaced by `ν t`. -/
def Cmd.relabel (ν : Str → Str) : Cmd → Cmd
  | .lit s m => .lit s m
  | .seq toks sep m => .seq (Cmd.relabelL ν toks) sep m
  | .variant opts lo hi sep m => .variant (Cmd.relabelO ν opts) lo hi sep m
  | .wild (.inl p) m v => .wild (.inl (ν p)) m (Cmd.relabelV ν v)
  | .wild (.inr p) m v => .wild (.inr (p.relabel ν)) m (Cmd.relabelV ν v)
  | .assign n v i o => .assign n (v.relabel ν) i o
  | .access n none => .access n none
  | .access n (some d) => .access n (some (d.relabel ν))
  | .wrap w i m => .wrap (w.relabel ν) (i.relabel ν) m
/-- In a list of commands. -/
def Cmd.relabelL (ν : Str → Str) : List Cmd → List Cmd
  | [] => []
  | c :: cs => c.relabel ν :: Cmd.relabelL ν cs
/-- In the options of a variant. -/
def Cmd.relabelO (ν : Str → Str) : List (Cmd × Rat) → List (Cmd × Rat)
  | [] => []
  | (c, x) :: cs => (c.relabel ν, x) :: Cmd.relabelO ν cs
/-- In the values of variables. -/
def Cmd.relabelV (ν : Str → Str) : List (Str × Cmd) → List (Str × Cmd)
  | [] => []
  | (n, c) :: cs => (n, c.relabel ν) :: Cmd.relabelV ν cs
end

/-- The variables with the wildcards in their values renamed. -/
def Ctx.relabel (ν : Str → Str) (ctx : Ctx) : Ctx := ⟨ctx.method, Cmd.relabelV ν ctx.vars, ctx.being⟩

end Verif

namespace Verif.Spec
open Verif
variable {W : Type}

/-- `E'` reads `s'` as `E` reads `s`, with the wildcards renamed. -/
structure ReadsTo (E E' : Env W) (ν : Str → Str) (s s' : Str) : Prop where
  empty : s' = [] ↔ s = []
  command : ∀ c, E.parse s = .ok c → E'.parse s' = .ok (c.relabel ν)
  error : ∀ e, E.parse s = .error e → E'.parse s' = .error e

/-- A value with another text. -/
def retext (τ : Str → Str) (i : Item) : Item := ⟨τ i.content, i.weight⟩

/-- The wildcard `wc'` of `E'` has the values of the wildcard `wc` of `E` with the texts changed by `τ`. -/
def SameValues (E E' : Env W) (τ : Str → Str) (wc wc' : Str) : Prop :=
  E'.getValues wc' = (do let items ← E.getValues wc; return items.map (retext τ))

/-- What is asked of a wildcard of the template: it has been renamed, or its name (which may be made from variables and
choices) stays and stands for the same wildcards as before. -/
inductive Moved (E E' : Env W) (ν τ : Str → Str) : Prompt → Prop
  | renamed {t} : PlainName E t → PlainName E' (ν t) → SameValues E E' τ t (ν t) → (∀ w w', E.getValues t w ≠ .ok [] w') →
      Moved E E' ν τ (.inl t)
  | kept {t} : ν t = t → ReadsTo E E' ν t t → (∀ wc, Named E (.inl t) wc → SameValues E E' τ wc wc) → Moved E E' ν τ (.inl t)
  | made {c} : (∀ wc, Named E (.inr c) wc → SameValues E E' τ wc wc) → Moved E E' ν τ (.inr c)

/-- All the wildcards that sampling `c` may come across have been moved, and the wildcards in their values are renamed by `τ`. -/
def AllMoved (E E' : Env W) (ν τ : Str → Str) (c : Cmd) : Prop :=
  ∀ path m v, Relation.ReflTransGen (Part E) c (.wild path m v) → Moved E E' ν τ path ∧
    ∀ wc items i, Named E path wc → Values E wc items → i ∈ items → ReadsTo E E' ν i.content (τ i.content)

/-- Two settings that differ in the names of wildcards. -/
structure Relabels (E E' : Env W) (ν τ : Str → Str) : Prop where
  different : Function.Injective ν
  rng : E'.rng = E.rng
  whitespace : E'.ignoreWs = E.ignoreWs
  missing : E'.toWildcard = E.toWildcard
  unknown : E'.unknown = E.unknown.map (Cmd.relabel ν)
  unknownMoved : ∀ u, E.unknown = some u → AllMoved E E' ν τ u

/-- A template and the template with renamed wildcards. -/
inductive RelabelledPrompt (E E' : Env W) (ν τ : Str → Str) : Prompt → Prompt → Prop
  | cmd {c} : AllMoved E E' ν τ c → RelabelledPrompt E E' ν τ (.inr c) (.inr (c.relabel ν))
  | text {t t' c} : t ≠ [] → t' ≠ [] → E.parse t = .ok c → E'.parse t' = .ok (c.relabel ν) → AllMoved E E' ν τ c →
      RelabelledPrompt E E' ν τ (.inl t) (.inl t')

/-- Two runs end in the same way, with related states. -/
def EndsAlikeIn {W' : Type} (R : W → W' → Prop) : Stop W → Stop W' → Prop
  | .limit _ w, .limit _ w' => R w w'
  | .stop w, .stop w' => R w w'
  | .raised e w, .raised e' w' => e = e' ∧ R w w'
  | .fuel, .fuel => True
  | _, _ => False

/-! ### Renaming in templates as they are written -/

/-- A wildcard's name that is plain text is renamed. -/
def pathRelabel (ν : Str → Str) : List Piece → List Piece
  | [.text t] => [.text (ν t)]
  | path => path

mutual
/-- The part of a template with renamed wildcards. -/
def Piece.relabel (ν : Str → Str) : Piece → Piece
  | .text t => .text t
  | .note s => .note s
  | .choice w m b o more => .choice w m b (o.relabel ν) (optsRelabel ν more)
  | .wild m path ps => .wild m (pathRelabel ν path) (paramsRelabel ν ps)
  | .get w1 n w2 => .get w1 n w2
  | .getD w1 n w2 w3 d => .getD w1 n w2 w3 (piecesRelabel ν d)
  | .set w1 n w2 keep now w3 v => .set w1 n w2 keep now w3 (piecesRelabel ν v)
  | .wrap w1 a w2 b => .wrap w1 (piecesRelabel ν a) w2 (piecesRelabel ν b)
/-- The template with renamed wildcards. -/
def piecesRelabel (ν : Str → Str) : List Piece → List Piece
  | [] => []
  | p :: ps => p.relabel ν :: piecesRelabel ν ps
/-- An option. -/
def Opt.relabel (ν : Str → Str) : Opt → Opt
  | .mk w n v => .mk w n (piecesRelabel ν v)
/-- Options. -/
def optsRelabel (ν : Str → Str) : List Opt → List Opt
  | [] => []
  | o :: os => o.relabel ν :: optsRelabel ν os
/-- Parameters of a wildcard. -/
def paramsRelabel (ν : Str → Str) : List Param → List Param
  | [] => []
  | .mk n v :: ps => .mk n (piecesRelabel ν v) :: paramsRelabel ν ps
end

/-- The name of a wildcard is plain text, or it is made of pieces in which no renamed wildcard is mentioned. -/
def PathStays (ν : Str → Str) (path : List Piece) : Prop :=
  (∃ t, path = [.text t]) ∨ ∃ c, pathOf (together (pathMeaning path)) = .inr c ∧ c.relabel ν = c

mutual
/-- The names of all wildcards in the part of a template are as `PathStays` says. -/
def Piece.pathsStay (ν : Str → Str) : Piece → Prop
  | .text _ => True
  | .note _ => True
  | .choice _ _ _ o more => o.pathsStay ν ∧ optsPathsStay ν more
  | .wild _ path ps => PathStays ν path ∧ paramsPathsStay ν ps
  | .get _ _ _ => True
  | .getD _ _ _ _ d => piecesPathsStay ν d
  | .set _ _ _ _ _ _ v => piecesPathsStay ν v
  | .wrap _ a _ b => piecesPathsStay ν a ∧ piecesPathsStay ν b
/-- In a template. -/
def piecesPathsStay (ν : Str → Str) : List Piece → Prop
  | [] => True
  | p :: ps => p.pathsStay ν ∧ piecesPathsStay ν ps
/-- In an option. -/
def Opt.pathsStay (ν : Str → Str) : Opt → Prop
  | .mk _ _ v => piecesPathsStay ν v
/-- In options. -/
def optsPathsStay (ν : Str → Str) : List Opt → Prop
  | [] => True
  | o :: os => o.pathsStay ν ∧ optsPathsStay ν os
/-- In parameters. -/
def paramsPathsStay (ν : Str → Str) : List Param → Prop
  | [] => True
  | .mk _ v :: ps => piecesPathsStay ν v ∧ paramsPathsStay ν ps
end

end Verif.Spec
