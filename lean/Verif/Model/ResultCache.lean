import Verif.Model.Py
import Verif.Model.Upd
/-
Model of prolothar_common/testing/non_productive_result_cache.py. The cache directory is the only persistent state; a
file is either completely written or truncated. A process can be killed at any point of a call. Pickling is modelled
by the property "loading a completely written file gives the stored value"; loading a truncated file raises.
-/
namespace Prolothar.ResultCache

variable {Args V : Type}

/-- the content of a file of the cache, non_productive_result_cache.py 27-39 -/
inductive Content (V : Type)
  | full (v : V)
  | truncated

/-- a decorated function: its name and the `key` function of the decorator; used for non_productive_result_cache.py 28-31 -/
structure Cached (Args : Type) where
  name : String
  key : Option (Args → String)

/-- the name of the result file in the cache directory, non_productive_result_cache.py 28-31 -/
def Cached.file (c : Cached Args) (args : Args) : String :=
  match c.key with
  | some k => c.name ++ k args
  | none => c.name

/-- what the decorated function does in one evaluation: raise, or return a value that can be pickled or not; used for non_productive_result_cache.py 27-39 -/
inductive Eval (V : Type)
  | raises (e : PyErr)
  | value (v : V)
  | unpicklable (v : V)

/-- where the process is killed during a call, if at all; used for non_productive_result_cache.py 27-39 -/
inductive Kill
  | never
  | beforeOpen
  | duringWrite
  | afterWrite
  deriving DecidableEq

/-- how a call ends; used for non_productive_result_cache.py 27-39 -/
inductive Outcome (V : Type)
  | returned (v : V)
  | raised (e : PyErr)
  | killed

/-- the persistent state, and as a ghost variable the evaluations so far: function, arguments and file; used for non_productive_result_cache.py 27-39 -/
structure State (Args V : Type) where
  files : String → Option (Content V)
  evals : List (String × Args × String)

/-- files cannot be created for a name with a directory separator, as the directory does not exist; used for non_productive_result_cache.py 27-39 -/
def openable (file : String) : Bool := !file.toList.contains '/'

/-- `wrapper`, non_productive_result_cache.py 27-39: a call of `c` with `args`; `ev` is what an evaluation of the
function does if there is one -/
def call (c : Cached Args) (args : Args) (ev : Eval V) (kill : Kill) (s : State Args V) : State Args V × Outcome V :=
  match s.files (c.file args) with
  | some (.full v) => (s, .returned v)
  | some .truncated => (s, .raised (.user 0))
  | none =>
    let s1 := { s with evals := s.evals ++ [(c.name, args, c.file args)] }
    match ev with
    | .raises e => (s1, .raised e)
    | .unpicklable _ =>
      if kill = .beforeOpen then (s1, .killed)
      else if !openable (c.file args) then (s1, .raised (.user 1))
      else ({ s1 with files := upd s1.files (c.file args) (some .truncated) }, if kill = .never then .raised .type else .killed)
    | .value v =>
      match kill with
      | .beforeOpen => (s1, .killed)
      | .duringWrite =>
        if !openable (c.file args) then (s1, .raised (.user 1))
        else ({ s1 with files := upd s1.files (c.file args) (some .truncated) }, .killed)
      | .afterWrite =>
        if !openable (c.file args) then (s1, .raised (.user 1))
        else ({ s1 with files := upd s1.files (c.file args) (some (.full v)) }, .killed)
      | .never =>
        if !openable (c.file args) then (s1, .raised (.user 1))
        else ({ s1 with files := upd s1.files (c.file args) (some (.full v)) }, .returned v)

/-- one entry of a history of calls, possibly by different processes one after the other; used for non_productive_result_cache.py 23-39 -/
structure Call (Args V : Type) where
  fn : Cached Args
  args : Args
  ev : Eval V
  kill : Kill

/-- a history of calls; used for non_productive_result_cache.py 23-39 -/
def run : List (Call Args V) → State Args V → State Args V × List (Outcome V)
  | [], s => (s, [])
  | c :: cs, s =>
    let r := call c.fn c.args c.ev c.kill s
    let rest := run cs r.1
    (rest.1, r.2 :: rest.2)

/-- an empty cache directory; used for non_productive_result_cache.py 23-39 -/
def empty : State Args V := ⟨fun _ => none, []⟩

end Prolothar.ResultCache
