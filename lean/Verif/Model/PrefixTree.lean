import Verif.Model.Dict
import Mathlib.Order.Basic
import Mathlib.Order.Defs.LinearOrder
/-
Model of prolothar_common/models/prefix_tree/prefix_tree.py.
-/
namespace Prolothar.PrefixTree

/-- `PrefixTree`, prefix_tree.py 23-35: `__id`, `__nr_of_sequences` and `__children`. Simplification: the symbol of a
node (`__symbol`, `None` at the root) is stored beside the node in the list of its parent. -/
inductive Tree (A : Type) where
  | node (id : String) (count : Nat) (children : List (A × Tree A)) : Tree A

section
variable {A : Type}

/-- `get_node_id`, prefix_tree.py 84-85 -/
def Tree.id : Tree A → String
  | .node i _ _ => i

/-- `__len__` and `get_nr_of_sequences`, prefix_tree.py 71-73 and 87-88 -/
def Tree.count : Tree A → Nat
  | .node _ n _ => n

/-- `get_children`, prefix_tree.py 81-82, with `get_symbol`, 90-91, of each -/
def Tree.children : Tree A → List (A × Tree A)
  | .node _ _ cs => cs

/-- `__init__`, prefix_tree.py 26-35 -/
def new (id : String := "") : Tree A := .node id 0 []

variable [LinearOrder A]

/-- the loop of `__find_insertion_point`, prefix_tree.py 54-63 -/
def findLoop (cs : List (A × Tree A)) (a : A) : Nat → Nat → Nat → Py Nat
  | 0, _, _ => .error .diverge
  | fuel + 1, lo, hi =>
    if lo < hi then
      let mid := (lo + hi) / 2
      match cs[mid]? with
      | none => .error .index
      | some c =>
        if c.1 = a then .ok mid
        else if c.1 < a then findLoop cs a fuel lo mid
        else findLoop cs a fuel (mid + 1) hi
    else .ok lo

/-- `__find_insertion_point`, prefix_tree.py 49-63 -/
def findInsertionPoint (cs : List (A × Tree A)) (a : A) : Py Nat :=
  if cs = [] then .ok 0 else findLoop cs a (cs.length + 1) 0 cs.length

/-- `append`, prefix_tree.py 37-47, and `__create_child`, 65-69 -/
def append : List A → Tree A → Py (Tree A)
  | [], .node id n cs => .ok (.node id (n + 1) cs)
  | a :: s, .node id n cs => do
    let i ← findInsertionPoint cs a
    match cs[i]? with
    | none => do
      let child ← append s (new (id ++ "." ++ toString cs.length))
      return .node id (n + 1) (cs ++ [(a, child)])
    | some c =>
      if c.1 = a then do
        let child ← append s c.2
        return .node id (n + 1) (cs.set i (c.1, child))
      else do
        let child ← append s (new (id ++ "." ++ toString cs.length))
        return .node id (n + 1) (cs.insertIdx i (a, child))

/-- a tree filled by a history of `append` calls; used for prefix_tree.py 37-47 -/
def build (seqs : List (List A)) : Py (Tree A) := seqs.foldlM (fun t s => append s t) new

/-- `is_leaf`, prefix_tree.py 75-79 -/
def isLeaf (t : Tree A) : Bool := t.children.isEmpty

/-- the loop of `traverse_level_order`, prefix_tree.py 100-103: the right end of the deque is the head of the list,
so that `pop` takes the head and `extendleft` appends. The result lists the yielded nodes. -/
def levelLoop : Nat → List (A × Tree A) → Py (List (A × Tree A))
  | 0, _ => .error .diverge
  | _ + 1, [] => .ok []
  | fuel + 1, c :: queue => do
    let rest ← levelLoop fuel (queue ++ c.2.children)
    return c :: rest

/-- `traverse_level_order`, prefix_tree.py 93-103 -/
def levelOrder (fuel : Nat) (t : Tree A) : Py (List (A × Tree A)) := levelLoop fuel t.children

end
end Prolothar.PrefixTree
