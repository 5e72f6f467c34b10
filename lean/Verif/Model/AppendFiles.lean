import Verif.Model.SavePlots
import Verif.Model.Upd
/-
Model of the appends to a text file of the result collector by several processes: `__save_values_to_text_file` in
/repo/prolothar_common/experiments/result_collector.py opens the file in mode 'a' for every block. The operating system puts what is written to
a file that is opened for appending at the end of the file, in one piece per system call. Between the calls of `write` and the system calls
there is a buffer of the process.
-/
namespace Prolothar.ResultCollector

/-- where a process is: it has written its first `k` blocks, or it has the file open for block `k` and still has to call `write` for the texts
`todo`; used for result_collector.py 194-218 -/
inductive AppendPc where
  | idle (k : Nat)
  | writing (k : Nat) (todo : List (List Char))

/-- the file, and the position and the buffer of every process; used for result_collector.py 194-218 -/
structure AppendState where
  file : List Char
  pc : Nat → AppendPc
  buffer : Nat → List Char

/-- before anybody opens the file; used for result_collector.py 194 -/
def AppendState.start (old : List Char) : AppendState := ⟨old, fun _ => .idle 0, fun _ => []⟩

/-- One step of one of the processes, result_collector.py 194-218. `blocks i` are the blocks of process `i`, each with the texts of its calls of
`write`. `flushes todo buffer n` says that a system call may write the first `n` characters of the buffer while the texts `todo` have not been
written. Leaving the `with` block closes the file, which needs an empty buffer. A process that is killed takes no more steps. -/
inductive AppendStep (blocks : Nat → List (List (List Char))) (flushes : List (List Char) → List Char → Nat → Prop) :
    AppendState → AppendState → Prop where
  | openFile {s : AppendState} (i : Nat) {k : Nat} {ws : List (List Char)} : s.pc i = .idle k → (blocks i)[k]? = some ws →
      AppendStep blocks flushes s { s with pc := upd s.pc i (.writing k ws) }
  | write {s : AppendState} (i : Nat) {k : Nat} {w : List Char} {ws : List (List Char)} : s.pc i = .writing k (w :: ws) →
      AppendStep blocks flushes s { s with pc := upd s.pc i (.writing k ws), buffer := upd s.buffer i (s.buffer i ++ w) }
  | flush {s : AppendState} (i : Nat) {k : Nat} {todo : List (List Char)} (n : Nat) : s.pc i = .writing k todo → flushes todo (s.buffer i) n →
      AppendStep blocks flushes s { s with file := s.file ++ (s.buffer i).take n, buffer := upd s.buffer i ((s.buffer i).drop n) }
  | close {s : AppendState} (i : Nat) {k : Nat} : s.pc i = .writing k [] → s.buffer i = [] →
      AppendStep blocks flushes s { s with pc := upd s.pc i (.idle (k + 1)) }

/-- blocks of any size: any part of the buffer may be written at any time; used for result_collector.py 194-218 -/
def anyPart (_ : List (List Char)) (_ : List Char) (_ : Nat) : Prop := True

/-- blocks that fit into the buffer: it is written when the file is closed, as a whole; used for result_collector.py 194-218 -/
def onlyAtTheEnd (todo : List (List Char)) (buffer : List Char) (n : Nat) : Prop := todo = [] ∧ buffer.length ≤ n

variable {C : Type}

/-- the texts that are written for one block, result_collector.py 195-218 -/
def blockWrites (m : Mode C) (xName miner : String) (d : Dict Rat C) : List (List Char) :=
  (block m xName miner d).map fun line => line.toList ++ ['\n']

end Prolothar.ResultCollector
