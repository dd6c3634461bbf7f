import Verif.Spec.RandomFree
import Verif.Spec.Syntax
/-!
# Renaming the variables of a template
-/

namespace Verif

mutual
/-- The command with every variable name `n` replaced by `ρ n`: where the variable is assigned, where it is used and where it
is given to a wildcard. -/
def Cmd.rename (ρ : Str → Str) : Cmd → Cmd
  | .lit s m => .lit s m
  | .seq toks sep m => .seq (Cmd.renameL ρ toks) sep m
  | .variant opts lo hi sep m => .variant (Cmd.renameO ρ opts) lo hi sep m
  | .wild (.inl p) m v => .wild (.inl p) m (Cmd.renameV ρ v)
  | .wild (.inr p) m v => .wild (.inr (p.rename ρ)) m (Cmd.renameV ρ v)
  | .assign n v i o => .assign (ρ n) (v.rename ρ) i o
  | .access n none => .access (ρ n) none
  | .access n (some d) => .access (ρ n) (some (d.rename ρ))
  | .wrap w i m => .wrap (w.rename ρ) (i.rename ρ) m
/-- In a list of commands. -/
def Cmd.renameL (ρ : Str → Str) : List Cmd → List Cmd
  | [] => []
  | c :: cs => c.rename ρ :: Cmd.renameL ρ cs
/-- In the options of a variant. -/
def Cmd.renameO (ρ : Str → Str) : List (Cmd × Rat) → List (Cmd × Rat)
  | [] => []
  | (c, x) :: cs => (c.rename ρ, x) :: Cmd.renameO ρ cs
/-- In variables with their values. -/
def Cmd.renameV (ρ : Str → Str) : List (Str × Cmd) → List (Str × Cmd)
  | [] => []
  | (n, c) :: cs => (ρ n, c.rename ρ) :: Cmd.renameV ρ cs
end

/-- The same variables and their values under new names. -/
def Ctx.rename (ρ : Str → Str) (ctx : Ctx) : Ctx := ⟨ctx.method, Cmd.renameV ρ ctx.vars, ctx.being.map ρ⟩

/-- Exceptions that name a variable. -/
def Err.rename (ρ : Str → Str) : Err → Err
  | .key n => .key (ρ n)
  | .recursion n => .recursion (ρ n)
  | e => e

end Verif

namespace Verif.Spec
open Verif
variable {W : Type}

/-- Commands that come from texts: the name of a wildcard, and its values. -/
inductive ReadFromText (E : Env W) : Cmd → Cmd → Prop
  | name {s m v d} : E.parse s = .ok d → ReadFromText E (.wild (.inl s) m v) d
  | value {path m v wc items i d} : Named E path wc → Values E wc items → i ∈ items → E.parse i.content = .ok d →
      ReadFromText E (.wild path m v) d

/-- The names of wildcards and the wildcard values that sampling `c` may come across do not mention renamed variables. -/
def TextsKeep (E : Env W) (ρ : Str → Str) (c : Cmd) : Prop :=
  ∀ x d, Relation.ReflTransGen (Part E) c x → ReadFromText E x d → d.rename ρ = d

/-- What the renaming has to satisfy: different variables keep different names, and whatever is not part of the template
(values for unknown variables, wildcard values, exceptions of the parser and of the wildcard manager) does not mention
renamed variables. -/
structure Renames (E : Env W) (ρ : Str → Str) (ctx : Ctx) : Prop where
  different : Function.Injective ρ
  unknown : ∀ u, E.unknown = some u → u.rename ρ = u ∧ TextsKeep E ρ u
  vars : ∀ b ∈ ctx.vars, TextsKeep E ρ b.2
  parser : ∀ s e, E.parse s = .error e → e.rename ρ = e
  manager : ∀ wc w e w', E.getValues wc w = .err e w' → e.rename ρ = e

/-- A template and the template with its variables renamed. -/
inductive RenamedPrompt (E : Env W) (ρ : Str → Str) : Prompt → Prompt → Prop
  | cmd {c} : TextsKeep E ρ c → RenamedPrompt E ρ (.inr c) (.inr (c.rename ρ))
  | text {t t' c} : t ≠ [] → t' ≠ [] → E.parse t = .ok c → E.parse t' = .ok (c.rename ρ) → TextsKeep E ρ c →
      RenamedPrompt E ρ (.inl t) (.inl t')

/-- Two runs end in the same way and in the same state; an exception that names a variable names the renamed one. -/
def SameEndRenamed (ρ : Str → Str) : Stop W → Stop W → Prop
  | .limit _ w, .limit _ w' => w = w'
  | .stop w, .stop w' => w = w'
  | .raised e w, .raised e' w' => e' = e.rename ρ ∧ w = w'
  | .fuel, .fuel => True
  | _, _ => False

/-! ### The variables a command mentions -/

mutual
/-- The names of the variables that are assigned, used or given to a wildcard anywhere in the command. -/
def variablesOf : Cmd → List Str
  | .lit _ _ => []
  | .seq toks _ _ => variablesOfAll toks
  | .variant opts _ _ _ _ => variablesOfOptions opts
  | .wild (.inl _) _ v => variablesOfParams v
  | .wild (.inr p) _ v => variablesOf p ++ variablesOfParams v
  | .assign n v _ _ => n :: variablesOf v
  | .access n none => [n]
  | .access n (some d) => n :: variablesOf d
  | .wrap w i _ => variablesOf w ++ variablesOf i
/-- Of a list of commands. -/
def variablesOfAll : List Cmd → List Str
  | [] => []
  | c :: cs => variablesOf c ++ variablesOfAll cs
/-- Of the options of a variant. -/
def variablesOfOptions : List (Cmd × Rat) → List Str
  | [] => []
  | (c, _) :: cs => variablesOf c ++ variablesOfOptions cs
/-- Of variables with their values. -/
def variablesOfParams : List (Str × Cmd) → List Str
  | [] => []
  | (n, c) :: cs => n :: variablesOf c ++ variablesOfParams cs
end

/-! ### Renaming in templates as they are written -/

mutual
/-- The part of a template with renamed variables.  Variables in the names of wildcards are left as they are. -/
def Piece.rename (ρ : Str → Str) : Piece → Piece
  | .text t => .text t
  | .note s => .note s
  | .choice w m b o more => .choice w m b (o.rename ρ) (optsRename ρ more)
  | .wild m path ps => .wild m path (paramsRename ρ ps)
  | .get w1 n w2 => .get w1 (ρ n) w2
  | .getD w1 n w2 w3 d => .getD w1 (ρ n) w2 w3 (piecesRename ρ d)
  | .set w1 n w2 keep now w3 v => .set w1 (ρ n) w2 keep now w3 (piecesRename ρ v)
  | .wrap w1 a w2 b => .wrap w1 (piecesRename ρ a) w2 (piecesRename ρ b)
/-- The template with renamed variables. -/
def piecesRename (ρ : Str → Str) : List Piece → List Piece
  | [] => []
  | p :: ps => p.rename ρ :: piecesRename ρ ps
/-- An option. -/
def Opt.rename (ρ : Str → Str) : Opt → Opt
  | .mk w n v => .mk w n (piecesRename ρ v)
/-- Options. -/
def optsRename (ρ : Str → Str) : List Opt → List Opt
  | [] => []
  | o :: os => o.rename ρ :: optsRename ρ os
/-- Parameters of a wildcard. -/
def paramsRename (ρ : Str → Str) : List Param → List Param
  | [] => []
  | .mk n v :: ps => .mk (ρ n) (piecesRename ρ v) :: paramsRename ρ ps
end

mutual
/-- No renamed variable stands in the name of a wildcard. -/
def Piece.pathsKept (ρ : Str → Str) : Piece → Prop
  | .text _ => True
  | .note _ => True
  | .choice _ _ _ o more => o.pathsKept ρ ∧ optsPathsKept ρ more
  | .wild _ path ps => (∀ n ∈ variablesOfAll (pathMeaning path), ρ n = n) ∧ paramsPathsKept ρ ps
  | .get _ _ _ => True
  | .getD _ _ _ _ d => piecesPathsKept ρ d
  | .set _ _ _ _ _ _ v => piecesPathsKept ρ v
  | .wrap _ a _ b => piecesPathsKept ρ a ∧ piecesPathsKept ρ b
/-- In a template. -/
def piecesPathsKept (ρ : Str → Str) : List Piece → Prop
  | [] => True
  | p :: ps => p.pathsKept ρ ∧ piecesPathsKept ρ ps
/-- In an option. -/
def Opt.pathsKept (ρ : Str → Str) : Opt → Prop
  | .mk _ _ v => piecesPathsKept ρ v
/-- In options. -/
def optsPathsKept (ρ : Str → Str) : List Opt → Prop
  | [] => True
  | o :: os => o.pathsKept ρ ∧ optsPathsKept ρ os
/-- In parameters. -/
def paramsPathsKept (ρ : Str → Str) : List Param → Prop
  | [] => True
  | .mk _ v :: ps => piecesPathsKept ρ v ∧ paramsPathsKept ρ ps
end

end Verif.Spec
