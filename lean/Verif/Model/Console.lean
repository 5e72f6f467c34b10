import Verif.Model.Py
import Verif.Model.Upd
/-
Model of `nullify_output`, prolothar_common/console_utils.py 46-66, over the part of the interpreter state it uses:
the objects bound to `sys.stdout` and `sys.stderr`, and for every stream object what was written and whether it is
closed. Stream objects are numbered in the order of creation.
-/
namespace Prolothar.Console

/-- what `nullify_output` changes, console_utils.py 46-66 -/
structure State where
  stdout : Nat
  stderr : Nat
  closed : Nat → Bool
  written : Nat → List String
  /-- the number of the next stream object -/
  next : Nat

/-- console_utils.py 52-59; returns what the finally block needs: the saved streams and the null device -/
def enter (so se : Bool) (s : State) : State × (Nat × Nat × Nat) :=
  ({ s with stdout := if so then s.next else s.stdout, stderr := if se then s.next else s.stderr, next := s.next + 1 },
   (s.stdout, s.stderr, s.next))

/-- the finally block, console_utils.py 61-66 -/
def leave (so se : Bool) (saved : Nat × Nat × Nat) (s : State) : State :=
  { s with
    stdout := if so then saved.1 else s.stdout
    stderr := if se then saved.2.1 else s.stderr
    closed := upd s.closed saved.2.2 true }

/-- `with nullify_output(so, se): body`, for a body that returns a value or raises; used for console_utils.py 46-66 -/
def nullify {α : Type} (so se : Bool) (body : State → State × Py α) (s : State) : State × Py α :=
  let e := enter so se s
  let r := body e.1
  (leave so se e.2 r.1, r.2)

/-- `stream.write(text)`; raises a ValueError if the stream is closed; used for console_utils.py 46-66 -/
def write (stream : Nat) (text : String) (s : State) : State × Py Unit :=
  if s.closed stream then (s, .error .value) else ({ s with written := upd s.written stream (s.written stream ++ [text]) }, .ok ())

end Prolothar.Console
