import Verif.Whole.Types
import Verif.Show.Lemmas

/-! What hovering over a variable shows. -/

namespace Verif.Whole

open Verif.Types (unionIsEmpty unionToBytes)

/-- `wrapCode` (`symbolConverter.go:36-40`). -/
def wrapCode (s : Bytes) : Bytes := b!"```\n" ++ s ++ b!"\n```\n"

/-- `variableToHover` (`symbolConverter.go:357-375`) of a variable with these types. The variables of a document that can
be hovered over have no description: `newVariableWithoutPushing` (`variable.go:28-43`) does not set one, and `toVariable`
(`parameter.go:86-97`, `globalVariable.go:106-115`), which does, makes variables that are only put into the table of
variables. -/
def variableText (types : Types.Union) (name : Bytes) : Bytes :=
  wrapCode ((if unionIsEmpty types then [] else unionToBytes types ++ b!" ") ++ name)

/-- The text that hovering over an expression shows, if it is a variable: `Resolve`, then `variableToHover`
(`hover.go:149-151`). -/
def variableHover (w : Infer.World) (e : Infer.Expr) : Option Bytes :=
  match e.resolve w with
  | .variable name types canGlobal done scope =>
    some (variableText (Infer.Expr.getTypes (.variable name types canGlobal done scope)) name)
  | _ => none

end Verif.Whole
