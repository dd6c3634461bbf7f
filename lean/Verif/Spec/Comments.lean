import Verif.Spec.Syntax
/-!
# Templates without their comments

`stripped ps` is the template `ps` without comments and without the optional white space inside its parts.
-/

namespace Verif.Spec

mutual
/-- A part of a template without the comments and the optional white space inside it. -/
def Piece.stripped : Piece → Piece
  | .text t => .text t
  | .note s => .note s
  | .choice _ m b o more => .choice [] m b o.stripped (optsStripped more)
  | .wild m path ps => .wild m (stripped path) (paramsStripped ps)
  | .get _ n _ => .get [] n []
  | .getD _ n _ _ d => .getD [] n [] [] (stripped d)
  | .set _ n _ keep now _ v => .set [] n [] keep now [] (stripped v)
  | .wrap _ a _ b => .wrap [] (stripped a) [] (stripped b)
/-- A template without comments and optional white space. -/
def stripped : List Piece → List Piece
  | [] => []
  | .note _ :: ps => stripped ps
  | p :: ps => p.stripped :: stripped ps
/-- An option without comments and optional white space. -/
def Opt.stripped : Opt → Opt
  | .mk _ n v => .mk [] n (Spec.stripped v)
/-- The options of a variant. -/
def optsStripped : List Opt → List Opt
  | [] => []
  | o :: os => o.stripped :: optsStripped os
/-- The parameters of a wildcard. -/
def paramsStripped : List Param → List Param
  | [] => []
  | .mk n v :: ps => .mk n (stripped v) :: paramsStripped ps
end

end Verif.Spec
