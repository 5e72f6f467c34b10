import Verif.Model.LogTable
import Verif.Model.TransactionFiles
/-
The calls of `write` of `EventLog.write_to_csv` in /repo/prolothar_common/models/eventlog/eventlog.py, for a writer that is a text file which the
user has opened with `open(path, 'w')` (`Transactions.SaveStep` models such a file).
-/
namespace Prolothar.LogTable
open Prolothar.EventLog
variable {I A V : Type}

/-- the texts of the lines of one trace, eventlog.py 94-98 -/
def traceWrites (name : A → List Char) (sep : List Char) (i : Nat) (t : Trace I A V) : List (List Char) :=
  t.events.flatMap fun e => [natStr i, sep, name e.activity, ['\n']]

/-- the texts that `write_to_csv` writes, eventlog.py 88-98 -/
def csvWrites (name : A → List Char) (log : Log I A V) (traceCol activityCol sep : List Char) : List (List Char) :=
  [traceCol, sep, activityCol, ['\n']] ++ log.zipIdx.flatMap fun p => traceWrites name sep p.2 p.1

end Prolothar.LogTable
