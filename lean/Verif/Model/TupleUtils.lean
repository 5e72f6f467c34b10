import Verif.Model.Py
/-
Model of /repo/prolothar_common/collections/tuple_utils.pyx (lines 20-55).
The three parallel lists `current_left`, `current_middle`, `current_right` are one list of
triples (the code always appends to the three of them together).
-/
namespace Prolothar.TupleUtils
variable {α : Type}

/-- one work item: (left, middle, right); used for tuple_utils.pyx 29-32 -/
abbrev Item (α : Type) := List α × List α × List α

/-- first loop, tuple_utils.pyx 29-32: `for i in range(len(t) - k + 1)`. A negative bound
gives an empty range. `(t[i],)` is modelled as the slice `t[i:i+1]`, `i` being in range. -/
def initItems (t : List α) (k : Nat) : List (Item α) :=
  (List.range ((t.length : Int) - k + 1).toNat).map
    (fun i => (t.take i, (t.drop i).take 1, t.drop (i + 1)))

/-- body of the inner loops, tuple_utils.pyx 37-44, for one work item. -/
def extend (it : Item α) : List (Item α) :=
  (List.range it.2.2.length).map
    (fun j => (it.1 ++ it.2.2.take j, it.2.1 ++ (it.2.2.drop j).take 1, it.2.2.drop (j + 1)))

/-- `while k > 1`, tuple_utils.pyx 33-48: `k - 1` rounds; the argument is the number of rounds
left. -/
def rounds : Nat → List (Item α) → List (Item α)
  | 0, cur => cur
  | r + 1, cur => rounds r (cur.flatMap extend)

/-- `all_splits_of_size_k`, tuple_utils.pyx 20-55. -/
def allSplits (t : List α) (k : Int) : Py (List (List α × List α)) :=
  if k < 1 then .error .value
  else .ok ((rounds (k.toNat - 1) (initItems t k.toNat)).map (fun it => (it.2.1, it.1 ++ it.2.2)))

end Prolothar.TupleUtils
