import Verif.Model.EventLog
import Mathlib.Data.List.Sort
import Mathlib.Data.List.Dedup
/-
Model of prolothar_common/models/transactions.py. A transaction is any hashable iterable (frozenset, tuple, ...):
`items t` are its items in iteration order. Files are lists of characters; `str` of an int is its decimal form.
-/
namespace Prolothar.Transactions
open Prolothar.EventLog

variable {T A : Type} [DecidableEq T] [LinearOrder A]

/-- `str(i)`; used for transactions.py 48-71 -/
def strInt (i : Int) : List Char := (toString i).toList

/-- `' '.join(words)`; used for transactions.py 73-94 -/
def joinWords (words : List (List Char)) : List Char := [' '].intercalate words

/-- `{item: i + offset for i, item in enumerate(l)}`; used for transactions.py 73-94 -/
def enumDict (l : List A) (offset : Int) : Dict A Int :=
  l.zipIdx.foldl (fun m e => m.put e.1 (e.2 + offset)) []

/-- `{v: k for k, v in d.items()}`; used for transactions.py 73-94 -/
def invertDict (d : Dict A Int) : Dict Int A := d.foldl (fun m e => m.put e.2 e.1) []

/-- `get_itemset`, transactions.py 124-131 -/
def itemset (items : T → List A) (db : List T) : List A := db.foldl (fun s t => (items t).foldl setAdd s) []

/-- `count_item_occurence`, transactions.py 133-146 -/
def countItems (items : T → List A) (db : List T) : Dict A Nat := db.foldl (fun c t => (items t).foldl bump c) []

/-- `get_nr_of_unique_transactions`, transactions.py 102-107 -/
def nrUnique (db : List T) : Nat := db.dedup.length

/-- `get_nr_of_items_in_transactions`, transactions.py 109-116 -/
def nrItems (items : T → List A) (db : List T) : Nat := db.foldl (fun n t => n + (items t).length) 0

/-- `get_nr_of_different_items`, transactions.py 118-122 -/
def nrDifferent (items : T → List A) (db : List T) : Nat := (itemset items db).length

/-- `get_maximum_transaction_length`, transactions.py 148-152 -/
def maxLength (items : T → List A) (db : List T) : Py Nat :=
  match db with
  | [] => .error .value
  | t :: db => .ok (db.foldl (fun m t => if m < (items t).length then (items t).length else m) (items t).length)

/-- `str(item_to_int.get(item))`; used for transactions.py 73-94 -/
def strGet (d : Dict A Int) (a : A) : List Char :=
  match d.get? a with
  | some i => strInt i
  | none => "None".toList

/-- `save_to_dat_file`, transactions.py 73-94: the text of the file and the returned dictionary -/
def saveDat (items : T → List A) (db : List T) (offset : Int) : List Char × Dict Int A :=
  let m := enumDict ((itemset items db).insertionSort (· ≤ ·)) offset
  ((db.map fun t => joinWords ((items t).map (strGet m)) ++ ['\n']).flatten, invertDict m)

/-- `str(item_to_id_dict[item])` for all items of a transaction; used for transactions.py 48-71 -/
def idWords (d : Dict A Int) (l : List A) : Py (List (List Char)) :=
  l.mapM fun a => do let i ← d.getItem a; return strInt i

/-- `save_to_fic_file`, transactions.py 34-71. The header line `mi:` is represented by its numbers nR, nT, nI, aS and mL; the
other lines are text without the line breaks. -/
structure Fic where
  header : List Nat
  ab : List Char
  ac : List Char
  it : List Char
  rows : List (List Char)

/-- `save_to_fic_file`: the content of the file and the returned dictionary; used for transactions.py 34-71 -/
def saveFic (items : T → List A) (db : List T) : Py (Fic × Dict Int A) := do
  let count := countItems items db
  let ids := enumDict count.keys 0
  let m ← maxLength items db
  let ac ← (ids.insertionSort fun a b => -a.2 ≤ -b.2).mapM fun e => do let n ← count.getItem e.1; return strInt n
  let rows ← db.mapM fun t => do
    let w ← idWords ids (items t)
    return strInt (items t).length ++ ": ".toList ++ joinWords w
  let sortedIds := joinWords ((ids.values.insertionSort (· ≤ ·)).map strInt)
  return (⟨[db.length, nrUnique db, nrItems items db, ids.length, m], "ab: ".toList ++ sortedIds,
    "ac: ".toList ++ joinWords ac, "it: ".toList ++ sortedIds, rows⟩, invertDict ids)

end Prolothar.Transactions
