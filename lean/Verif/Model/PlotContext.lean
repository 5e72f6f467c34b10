import Verif.Model.Py
import Verif.Model.Upd
import Verif.Model.Dict
/-
Model of `PlotContext` in /repo/prolothar_common/experiments/plots/plot_context.py: nested `with PlotContext(...)` blocks whose bodies draw,
open further figures and raise exceptions. pyplot keeps the open figures in the order in which they became current, the last one
is the current figure. Simplifications: layout has no effect on what is drawn; a log file that is written has its new content at
once; only drawing, opening a log file and saving can fail.
-/
namespace Prolothar.PlotContext

/-- a call of a method of an axes object: its name and its printed arguments; used for plot_context.py 39-160 -/
structure Call where
  kind : String
  args : String
  deriving DecidableEq

/-- the arguments of the constructor, plot_context.py 90-92 -/
structure Config where
  show_ : Bool
  file : Option String
  log : Option String

/-- the statements of a body. The contexts of the enclosing `with` statements are numbered from the innermost one. Used for plot_context.py 39-160. -/
inductive Stmt where
  /-- a call on the axes of context `k`; the flag says whether it raises an exception -/
  | call (k : Nat) (c : Call) (fails : Bool)
  /-- `plt.figure()` -/
  | figure
  /-- `raise` -/
  | raise
  /-- `with PlotContext(...) as c: body` -/
  | block (cfg : Config) (body : List Stmt)

/-- what is in a file; used for plot_context.py 117 -/
inductive File where
  /-- the entries of a log -/
  | log (entries : List Call)
  /-- a figure on which these calls have drawn -/
  | picture (calls : List Call)
  deriving DecidableEq

/-- the state of the process: the open figures, the number of figures created so far, what was drawn on each, the contents of the files and
the log files that are open. `done` records the calls in order, with the figure they were made for and whether they failed. Used for plot_context.py 117. -/
structure World where
  opened : List Nat
  next : Nat
  files : String → Option File
  logs : List String
  done : List (Nat × Call × Bool)

/-- the environment: which log files can be opened, which figures can be saved, and whether `plt.show` waits until the user has closed all
windows; used for plot_context.py 90-102 -/
structure Env where
  canOpen : String → Bool
  canSave : String → Bool
  blocking : Bool

/-- an entered context: its figure and its log file; used for plot_context.py 114-152 -/
structure Ctx where
  fig : Nat
  log : Option String

/-- the methods that are logged, plot_context.py 107-111 -/
def logged (c : Call) : Bool := ["plot", "legend", "hist", "bar", "scatter"].contains c.kind

/-- what was drawn on a figure: the successful calls on its axes; used for plot_context.py 64-72 -/
def drawn (w : World) (fig : Nat) : List Call := w.done.filterMap fun d => if d.1 = fig ∧ d.2.2 = false then some d.2.1 else none

/-- `self.__log_file.write(...)`, e.g. plot_context.py 117 -/
def writeLog (w : World) (path : String) (c : Call) : World :=
  match w.files path with
  | some (.log es) => { w with files := upd w.files path (some (.log (es ++ [c]))) }
  | _ => { w with files := upd w.files path (some (.log [c])) }

/-- a call on the axes of a context, plot_context.py 114-152: logged before it is executed, if there is a log file -/
def doCall (ctx : Ctx) (c : Call) (fails : Bool) (w : World) : World :=
  let w := match ctx.log with
    | some path => if logged c then writeLog w path c else w
    | none => w
  { w with done := w.done ++ [(ctx.fig, c, fails)] }

/-- `plt.figure()` and the figure created by `plt.subplots()`, plot_context.py 105: a new current figure -/
def newFigure (w : World) : World := { w with opened := w.opened ++ [w.next], next := w.next + 1 }

/-- the constructor of `PlotContext`, plot_context.py 90-102 -/
def construct (env : Env) (cfg : Config) (w : World) : Py World :=
  match cfg.log with
  | some path =>
    if env.canOpen path then .ok { w with files := upd w.files path (some (.log [])), logs := w.logs ++ [path] } else .error .value
  | none => .ok w

/-- `plt.show()` and `plt.close()`, plot_context.py 69-72 -/
def showOrClose (env : Env) (cfg : Config) (w : World) : World :=
  if cfg.show_ then (if env.blocking then { w with opened := [] } else w)
  else { w with opened := w.opened.dropLast }

/-- `self.__log_file.close()`, plot_context.py 159-160 -/
def closeLog (cfg : Config) (w : World) : World :=
  match cfg.log with
  | some path => { w with logs := w.logs.erase path }
  | none => w

/-- `__exit__`, plot_context.py 64-72 and 157-160; the second component tells whether it raises an exception -/
def exit (env : Env) (cfg : Config) (fig : Nat) (w : World) : World × Bool :=
  match cfg.file with
  | some path =>
    if env.canSave path then
      (closeLog cfg (showOrClose env cfg { w with files := upd w.files path (some (.picture (drawn w fig))) }), false)
    else (w, true)
  | none => (closeLog cfg (showOrClose env cfg w), false)

mutual
/-- executes a statement; the second component tells whether an exception was raised; used for plot_context.py 39-160 -/
def exec (env : Env) (ctxs : List Ctx) : Stmt → World → World × Bool
  | .call k c fails, w =>
    match ctxs[k]? with
    | some ctx => (doCall ctx c fails w, fails)
    | none => (w, true)
  | .figure, w => (newFigure w, false)
  | .raise, w => (w, true)
  | .block cfg body, w =>
    match construct env cfg w with
    | .error _ => (w, true)
    | .ok w1 =>
      let fig := w1.next
      let r := execAll env (⟨fig, cfg.log⟩ :: ctxs) body (newFigure w1)
      let e := exit env cfg fig r.1
      (e.1, r.2 || e.2)
/-- executes statements until an exception is raised; used for plot_context.py 39-160 -/
def execAll (env : Env) (ctxs : List Ctx) : List Stmt → World → World × Bool
  | [], w => (w, false)
  | s :: ss, w =>
    let r := exec env ctxs s w
    if r.2 then r else execAll env ctxs ss r.1
end

end Prolothar.PlotContext
