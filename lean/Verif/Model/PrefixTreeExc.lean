import Verif.Model.PrefixTree
/-
Model of `PrefixTree.append` (prolothar_common/models/prefix_tree/prefix_tree.py) with symbols that cannot all be compared with each other, and
with what is left of the tree if the call raises. `kind` is the type of a symbol in the sense that `<` raises TypeError for symbols of different
kinds (strings and numbers); `==` is False for them. Within a kind `<` is a linear order.
-/
namespace Prolothar.PrefixTree
variable {A K : Type} [LinearOrder A] [DecidableEq K]

/-- the loop of `__find_insertion_point`, prefix_tree.py 54-63 -/
def findLoopK (kind : A → K) (cs : List (A × Tree A)) (a : A) : Nat → Nat → Nat → Py Nat
  | 0, _, _ => .error .diverge
  | fuel + 1, lo, hi =>
    if lo < hi then
      let mid := (lo + hi) / 2
      match cs[mid]? with
      | none => .error .index
      | some c =>
        if c.1 = a then .ok mid
        else if kind c.1 ≠ kind a then .error .type
        else if c.1 < a then findLoopK kind cs a fuel lo mid
        else findLoopK kind cs a fuel (mid + 1) hi
    else .ok lo

/-- `__find_insertion_point`, prefix_tree.py 49-63 -/
def findK (kind : A → K) (cs : List (A × Tree A)) (a : A) : Py Nat :=
  if cs = [] then .ok 0 else findLoopK kind cs a (cs.length + 1) 0 cs.length

/-- `append`, prefix_tree.py 37-47, and `__create_child`, 65-69: the result and the tree after the call. A child that is found is changed in place,
also if the call for it raises; a created child is put into the list after it was filled; the count is increased at the end. -/
def appendX (kind : A → K) : List A → Tree A → Py Unit × Tree A
  | [], .node id n cs => (.ok (), .node id (n + 1) cs)
  | a :: s, .node id n cs =>
    match findK kind cs a with
    | .error e => (.error e, .node id n cs)
    | .ok i =>
      match cs[i]? with
      | none =>
        match appendX kind s (new (id ++ "." ++ toString cs.length)) with
        | (.error e, _) => (.error e, .node id n cs)
        | (.ok _, child) => (.ok (), .node id (n + 1) (cs ++ [(a, child)]))
      | some c =>
        if c.1 = a then
          match appendX kind s c.2 with
          | (.error e, child) => (.error e, .node id n (cs.set i (c.1, child)))
          | (.ok _, child) => (.ok (), .node id (n + 1) (cs.set i (c.1, child)))
        else
          match appendX kind s (new (id ++ "." ++ toString cs.length)) with
          | (.error e, _) => (.error e, .node id n cs)
          | (.ok _, child) => (.ok (), .node id (n + 1) (cs.insertIdx i (a, child)))

/-- a history of `append` calls by a caller who catches the exceptions: the results and the tree; used for prefix_tree.py 37-47 -/
def runX (kind : A → K) : List (List A) → Tree A → List (Py Unit) × Tree A
  | [], t => ([], t)
  | s :: seqs, t =>
    let r := appendX kind s t
    let rest := runX kind seqs r.2
    (r.1 :: rest.1, rest.2)

end Prolothar.PrefixTree
