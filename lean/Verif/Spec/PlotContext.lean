import Verif.Model.PlotContext
/-
What a program with nested plot contexts does, read off its text: which statements raise an exception, which calls are made, which files
are used. Nothing in this file refers to the execution of a program.
-/
namespace Prolothar.Spec.PlotContext
open Prolothar.PlotContext

mutual
/-- a statement inside of `d` contexts raises an exception -/
def Raises (env : Env) (d : Nat) : Stmt → Bool
  | .call k _ fails => fails || decide (d ≤ k)
  | .figure => false
  | .raise => true
  | .block cfg body =>
    (cfg.log.any fun p => !env.canOpen p) || SomeRaises env (d + 1) body || (cfg.file.any fun p => !env.canSave p)
/-- one of the statements raises an exception -/
def SomeRaises (env : Env) (d : Nat) : List Stmt → Bool
  | [] => false
  | s :: ss => Raises env d s || SomeRaises env d ss
end

mutual
/-- the calls that a statement inside of `d` contexts makes on the axes of context `k`, and whether they fail -/
def calls (env : Env) (d k : Nat) : Stmt → List (Call × Bool)
  | .call j c fails => if j = k then [(c, fails)] else []
  | .figure => []
  | .raise => []
  | .block cfg body => if cfg.log.any fun p => !env.canOpen p then [] else allCalls env (d + 1) (k + 1) body
/-- the calls of the statements up to the first exception -/
def allCalls (env : Env) (d k : Nat) : List Stmt → List (Call × Bool)
  | [] => []
  | s :: ss => calls env d k s ++ if Raises env d s then [] else allCalls env d k ss
end

mutual
/-- the files a statement may write -/
def uses : Stmt → List String
  | .block cfg body => cfg.file.toList ++ cfg.log.toList ++ allUses body
  | _ => []
def allUses : List Stmt → List String
  | [] => []
  | s :: ss => uses s ++ allUses ss
end

mutual
/-- all figures are opened by contexts that do not show them -/
def Quiet : Stmt → Bool
  | .figure => false
  | .block cfg body => !cfg.show_ && AllQuiet body
  | _ => true
def AllQuiet : List Stmt → Bool
  | [] => true
  | s :: ss => Quiet s && AllQuiet ss
end

mutual
/-- all figures can be saved -/
def Savable (env : Env) : Stmt → Bool
  | .block cfg body => (cfg.file.all fun p => env.canSave p) && AllSavable env body
  | _ => true
def AllSavable (env : Env) : List Stmt → Bool
  | [] => true
  | s :: ss => Savable env s && AllSavable env ss
end

/-- the entries of the log for the calls on the axes of a context -/
def entries (l : List (Call × Bool)) : List Call :=
  (l.map Prod.fst).filter fun c => ["plot", "legend", "hist", "bar", "scatter"].contains c.kind

/-- the picture that the calls on the axes of a context draw: the failing ones draw nothing -/
def picture (l : List (Call × Bool)) : List Call := (l.filter fun c => !c.2).map Prod.fst

end Prolothar.Spec.PlotContext
