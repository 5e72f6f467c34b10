import Verif.Model.Transactions
/-
Model of the files that `save_to_fic_file` and `save_to_dat_file` of prolothar_common/models/transactions.py write, at every moment
while they write. The text of a file is buffered by the process and reaches the disk in pieces of any size; a process that is
killed leaves what is on the disk at this moment.
-/
namespace Prolothar.Transactions
open Prolothar.EventLog

/-- where the process is: before `open`, in the `with` block with the texts that are still to be written, after the `with` block;
used for transactions.py 52-71 and 90-94 -/
inductive SavePc where
  | before
  | writing (todo : List (List Char))
  | closed

/-- the process, the buffer of the file object and the file on the disk; used for transactions.py 52-71 and 90-94 -/
structure SaveState where
  pc : SavePc
  buffer : List Char
  disk : Option (List Char)

/-- before the file is opened; `old` is the file that may be there already; used for transactions.py 52 and 90 -/
def SaveState.start (old : Option (List Char)) : SaveState := ⟨.before, [], old⟩

/-- One step of a save that calls `write` for the given texts, transactions.py 52-71 and 90-94: `open(path, 'w')` empties the file,
`write` fills the buffer, any part of the buffer goes to the disk at any time, and leaving the `with` block (also by an exception)
closes the file, which needs an empty buffer. -/
inductive SaveStep (writes : List (List Char)) : SaveState → SaveState → Prop where
  | openFile {s : SaveState} : s.pc = .before → SaveStep writes s ⟨.writing writes, [], some []⟩
  | write {s : SaveState} {w ws} : s.pc = .writing (w :: ws) →
      SaveStep writes s { s with pc := .writing ws, buffer := s.buffer ++ w }
  | flush {s : SaveState} {todo d} (n : Nat) : s.pc = .writing todo → s.disk = some d →
      SaveStep writes s { s with disk := some (d ++ s.buffer.take n), buffer := s.buffer.drop n }
  | close {s : SaveState} : s.pc = .writing [] → s.buffer = [] → SaveStep writes s { s with pc := .closed }

variable {T A : Type} [DecidableEq T] [LinearOrder A]

/-- the texts that `save_to_dat_file` writes, transactions.py 91-93 -/
def datWrites (items : T → List A) (db : List T) (offset : Int) : List (List Char) :=
  let m := enumDict ((itemset items db).insertionSort (· ≤ ·)) offset
  db.flatMap fun t => [joinWords ((items t).map (strGet m)), ['\n']]

/-- the line `mi:` of the header, transactions.py 54-58 -/
def ficHeader (nR nT nI aS mL : Nat) : List Char :=
  "mi: nR=".toList ++ strInt nR ++ " nT=".toList ++ strInt nT ++ " nI=".toList ++ strInt nI ++ " aS=".toList ++ strInt aS ++
    " sS=212624.77319 mL=".toList ++ strInt mL ++ ['\n']

/-- one row of the FIC file, transactions.py 68-71 -/
def ficRow (items : T → List A) (ids : Dict A Int) (t : T) : Py (List Char) := do
  let w ← idWords ids (items t)
  return strInt (items t).length ++ ": ".toList ++ joinWords w ++ ['\n']

/-- the rows until one of them raises, transactions.py 67-71 -/
def ficRows (items : T → List A) (ids : Dict A Int) : List T → List (List Char) × Option PyErr
  | [] => ([], none)
  | t :: ts => match ficRow items ids t with
    | .error e => ([], some e)
    | .ok r => (r :: (ficRows items ids ts).1, (ficRows items ids ts).2)

/-- the texts that `save_to_fic_file` writes, and the exception that ends it, transactions.py 48-71 -/
def ficWrites (items : T → List A) (db : List T) : List (List Char) × Option PyErr :=
  let count := countItems items db
  let ids := enumDict count.keys 0
  let sortedIds := joinWords ((ids.values.insertionSort (· ≤ ·)).map strInt)
  match maxLength items db with
  | .error e => (["fic-1.5\n".toList], some e)
  | .ok m =>
    let top := ["fic-1.5\n".toList, ficHeader db.length (nrUnique db) (nrItems items db) ids.length m, "ab: ".toList ++ sortedIds ++ ['\n']]
    match (ids.insertionSort fun a b => -a.2 ≤ -b.2).mapM fun e => do let n ← count.getItem e.1; return strInt n with
    | .error e => (top, some e)
    | .ok ac =>
      (top ++ ["ac: ".toList ++ joinWords ac ++ ['\n'], "it: ".toList ++ sortedIds ++ ['\n']] ++ (ficRows items ids db).1,
        (ficRows items ids db).2)

end Prolothar.Transactions
