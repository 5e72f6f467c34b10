import Verif.Model.Py
/-
Model of the remaining functions of
/repo/prolothar_common/collections/list_utils.pyx (lines 132-235).
-/
namespace Prolothar.ListUtils
variable {α : Type}

/-- python `range(start, stop, step)` for non-negative arguments; a zero step raises
ValueError. Used for list_utils.pyx 132-139. -/
def pyRange (start stop step : Nat) : Py (List Nat) :=
  if step = 0 then .error .value
  else .ok ((List.range ((stop - start + step - 1) / step)).map (fun k => start + step * k))

/-- `view_of_n_partitions`, list_utils.pyx 132-139. `divmod` by zero raises
ZeroDivisionError. -/
def viewOfNPartitions (l : List α) (n : Int) : Py (List (List α)) := do
  let L : Int := l.length
  let n' : Int := max (min n L) 0
  if n' = 0 then .error .zeroDivision
  else
    let s : Nat := (L / n').toNat
    let r : Nat := (L % n').toNat
    let t := s + 1
    let starts1 ← pyRange 0 (r * t) t
    let starts2 ← pyRange (r * t) l.length s
    return starts1.map (fun p => pySlice l p (p + t)) ++
      starts2.map (fun p => pySlice l p (p + s))

/-- `enumerate_reversed`, list_utils.pyx 141-144: `index` of the reversed enumeration is
replaced by `len(l) - 1 - index`. -/
def enumerateReversed (l : List α) : List (Int × α) :=
  l.reverse.zipIdx.map (fun p => ((l.length : Int) - 1 - p.2, p.1))

/-- a python value that is either a list of such values or something else. Used for list_utils.pyx 146-158. -/
inductive Nested (α : Type) where
  | leaf (a : α)
  | list (xs : List (Nested α))

/-- `deep_flatten`, list_utils.pyx 146-158. The list comprehension extends `flat_list` by
the recursive results, in order. Python's recursion limit is not modelled. -/
def deepFlatten : Nested α → List α
  | .leaf a => [] ++ [a]
  | .list xs => xs.attach.foldl (fun flatList x => flatList ++ deepFlatten x.1) []
termination_by x => sizeOf x
decreasing_by
  have := List.sizeOf_lt_of_mem x.2
  simp only [Nested.list.sizeOf_spec]
  omega

/-- `iterate_self_product`, list_utils.pyx 160-185: nested enumerate loops; the generator is
modelled by the list of the yielded pairs. -/
def iterateSelfProduct (l : List α) (skipDiagonal : Bool) : List (α × α) :=
  l.zipIdx.flatMap (fun (ei, i) =>
    l.zipIdx.flatMap (fun (ej, j) =>
      if !skipDiagonal || i != j then [(ei, ej)] else []))

/-- state of the loops of `longest_common_sublists`; used for list_utils.pyx 213-222 -/
structure LcsState where
  matrix : Nat → Nat → Int
  length : Int
  indices : List (Int × Int)

variable [DecidableEq α]

/-- loop body of `longest_common_sublists`, list_utils.pyx 213-222. The numpy matrix is a
function updated at one cell; `boundscheck(False)` plays no role because all accessed cells
are inside the matrix. Integers are unbounded here; Model/CInt.lean has the program with C `int`s. -/
def lcsBody (a b : List α) (i j : Nat) (st : LcsState) : LcsState :=
  if a[i]? = b[j]? then
    let v : Int := if i = 0 ∨ j = 0 then 1 else st.matrix (i - 1) (j - 1) + 1
    let m : Nat → Nat → Int := fun x y => if x = i ∧ y = j then v else st.matrix x y
    if m i j > st.length then
      { matrix := m, length := m i j, indices := [((i : Int), (j : Int))] }
    else if m i j = st.length then
      { matrix := m, length := st.length, indices := st.indices ++ [((i : Int), (j : Int))] }
    else { st with matrix := m }
  else st

/-- `longest_common_sublists`, list_utils.pyx 187-224. -/
def longestCommonSublists (a b : List α) : Int × List (Int × Int) :=
  let st := (List.range a.length).foldl
    (fun st i => (List.range b.length).foldl (fun st j => lcsBody a b i j st) st)
    { matrix := fun _ _ => 0, length := 0, indices := [] }
  (st.length, st.indices.map (fun p => (p.1 - st.length + 1, p.2 - st.length + 1)))

omit [DecidableEq α] in
/-- python `zip(*lists)`: rows until the shortest list ends; no lists give no rows. Used for list_utils.pyx 226-235. -/
def zipStar (lists : List (List α)) : List (List α) :=
  match lists with
  | [] => []
  | _ :: _ =>
    let m := (lists.map List.length).min?.getD 0
    (List.range m).map (fun k => lists.filterMap (fun l => l[k]?))

omit [DecidableEq α] in
/-- `shuffle_together`, list_utils.pyx 226-235. The outcome of `random.shuffle(temp)` is
given by the list `order` of the old positions in their new order; the theorems quantify over
every rearrangement `order` of the positions. -/
def shuffleTogether (order : List Nat) (lists : List (List α)) : List (List α) :=
  let temp := zipStar lists
  let shuffled := order.filterMap (fun k => temp[k]?)
  zipStar shuffled

end Prolothar.ListUtils
