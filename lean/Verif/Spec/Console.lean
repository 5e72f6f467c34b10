import Verif.Model.Console
/-
Programs that produce output, independent of `nullify_output`: they print to `sys.stdout` or `sys.stderr`, observe
whether this succeeded, and nest `nullify_output` blocks. As the continuations are arbitrary functions, they
branch, loop and handle exceptions in any way.
-/
namespace Prolothar.Spec.Console
open Prolothar Prolothar.Console

inductive Prog (α : Type)
  | done (result : Py α)
  | print (toStderr : Bool) (text : String) (k : Py Unit → Prog α)
  | nullified (so se : Bool) (body : Prog α) (k : Py α → Prog α)

/-- running a program -/
def Prog.run {α : Type} : Prog α → State → State × Py α
  | .done r, s => (s, r)
  | .print toStderr text k, s =>
    let w := write (if toStderr then s.stderr else s.stdout) text s
    (k w.2).run w.1
  | .nullified so se body k, s =>
    let w := nullify so se body.run s
    (k w.2).run w.1

end Prolothar.Spec.Console
