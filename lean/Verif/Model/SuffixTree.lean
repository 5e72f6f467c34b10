import Verif.Model.Dict
import Verif.Model.Patterns
import Verif.Model.Upd
/-
Model of prolothar_common/models/suffix_tree.py and of the functions of patterns.py which use it. Node
objects are identified with their numbers; the attributes of the objects are functions of the number.
-/
namespace Prolothar.SuffixTree
open Prolothar.BoyerMoore Prolothar.Patterns

/-- `SuffixTree`, suffix_tree.py 23-31, with the attributes of its nodes, 33-38; `edges` is a dictionary -/
structure Tree where
  size : Nat
  parent : Nat → Option Nat
  kids : Nat → List Nat
  edges : Nat × Nat → Option (Nat × Nat)

/-- the tree with the root only, suffix_tree.py 25-27 -/
def Tree.new : Tree := ⟨1, fun _ => none, fun _ => [], fun _ => none⟩

/-- `self.edges[(a, b)]`; used for suffix_tree.py 88-94 -/
def Tree.edge (t : Tree) (a b : Nat) : Py (Nat × Nat) :=
  match t.edges (a, b) with
  | some e => .ok e
  | none => .error .key

/-- `node.parent`; the root has the parent `None`, whose `number` does not exist; used for suffix_tree.py 57-84 -/
def Tree.parentOf (t : Tree) (a : Nat) : Py Nat :=
  match t.parent a with
  | some p => .ok p
  | none => .error .attribute

/-- `add_node`, suffix_tree.py 98-113; `kids` are the children which the new node already has -/
def Tree.addNode (t : Tree) (p es ee : Nat) (kids : List Nat) : Tree :=
  { size := t.size + 1
    parent := upd t.parent t.size (some p)
    kids := upd (upd t.kids t.size kids) p (t.kids p ++ [t.size])
    edges := upd t.edges (p, t.size) (some (es, ee)) }

section
variable {α : Type} [DecidableEq α]

/-- what the loop over the children in `insert_position` finds; used for suffix_tree.py 88-94 -/
inductive Scan where
  | descend (start c : Nat)
  | overlap (c : Nat)
  | done

/-- the loop of `insert_position`, suffix_tree.py 88-94 -/
def scan (word : List α) (t : Tree) (p start : Nat) : List Nat → Py Scan
  | [] => .ok .done
  | c :: cs => do
    let e ← t.edge p c
    if pySlice word start (start + e.2 - e.1) = pySlice word e.1 e.2 then .ok (.descend (start + e.2 - e.1) c)
    else do
      let a ← pyGet word (e.1 : Int)
      let b ← pyGet word (start : Int)
      if a = b then .ok (.overlap c) else scan word t p start cs

/-- `insert_position`, suffix_tree.py 86-96; the fuel bounds the recursion -/
def insertPosition (word : List α) (t : Tree) : Nat → Nat → Nat → Py (Nat × Nat × Bool)
  | 0, _, _ => .error .diverge
  | fuel + 1, start, p => do
    let r ← scan word t p start (t.kids p)
    match r with
    | .descend start' c => insertPosition word t fuel start' c
    | .overlap c => .ok (c, start, true)
    | .done => .ok (p, start, false)

/-- the loop for `insert_len`, suffix_tree.py 64-66 -/
def insertLen (word : List α) (es ps : Nat) : Nat → Nat → Py Nat
  | 0, _ => .error .diverge
  | fuel + 1, l =>
    if pySlice word es (es + l) = pySlice word ps (ps + l) then insertLen word es ps fuel (l + 1) else .ok l

/-- splitting the edge from `gp` to `pn`, suffix_tree.py 68-80: `il` is `insert_len` -/
def split (n : Nat) (t : Tree) (gp pn es ps pe il : Nat) : Tree :=
  let new := t.size
  let t1 := t.addNode gp ps (ps + il - 1) [pn]
  let t2 : Tree :=
    { t1 with
      edges := upd (upd t1.edges (gp, pn) none) (new, pn) (some (ps + il - 1, pe))
      kids := upd t1.kids gp ((t1.kids gp).erase pn)
      parent := upd t1.parent pn (some new) }
  t2.addNode new (es + il - 1) n []

/-- one iteration of the loop of `add_word`, suffix_tree.py 57-84 -/
def addSuffix (word : List α) (t : Tree) (i : Nat) : Py Tree := do
  let r ← insertPosition word t (word.length + 1) i 0
  if r.2.2 then do
    let gp ← t.parentOf r.1
    let e ← t.edge gp r.1
    let il ← insertLen word r.2.1 e.1 (word.length + 2) 0
    return split word.length t gp r.1 r.2.1 e.1 e.2 il
  else return t.addNode r.1 r.2.1 word.length []

/-- `add_word`, suffix_tree.py 49-84, for a word that ends with the sentinel -/
def build (word : List α) : Py Tree := (List.range word.length).foldlM (addSuffix word) Tree.new

/-- `SuffixTree(word)`, suffix_tree.py 23-31, with the sentinel added if needed, 52-54; the completed word is `self.word` -/
def create (dollar : α) (seq : List α) : Py (List α × Tree) := do
  let last ← pyGet seq (-1)
  let word := if last ≠ dollar then seq ++ [dollar] else seq
  let t ← build word
  return (word, t)

/-- `total_descendants`, suffix_tree.py 119-124; the cache `descendants_dict` does not change the result -/
def totalDescendants (t : Tree) : Nat → Nat → Py Nat
  | 0, _ => .error .diverge
  | fuel + 1, i => do
    let ds ← (t.kids i).mapM (totalDescendants t fuel)
    return (t.kids i).length + ds.sum

/-- the loop of `node_word`, suffix_tree.py 128-132 -/
def nodeWordLoop (word : List α) (t : Tree) : Nat → Nat → List α → Py (List α)
  | 0, _, _ => .error .diverge
  | fuel + 1, i, cur =>
    if i ≠ 0 then do
      let p ← t.parentOf i
      let e ← t.edge p i
      nodeWordLoop word t fuel p (pySlice word e.1 e.2 ++ cur)
    else .ok cur

/-- `node_word`, suffix_tree.py 126-136 -/
def nodeWord (dollar : α) (word : List α) (t : Tree) (i : Nat) : Py (List α) := do
  let w ← nodeWordLoop word t (word.length + 1) i []
  return if w.getLast? = some dollar then w.dropLast else w

/-- one iteration of the first loop of `find_maximal_repeats`, patterns.py 93-98 -/
def collect (dollar : α) (word : List α) (t : Tree) (minLength : Nat) (d : Dict Nat (List (List α))) (i : Nat) :
    Py (Dict Nat (List (List α))) := do
  let n ← totalDescendants t (word.length + 1) i
  if n ≥ 2 then do
    let w ← nodeWord dollar word t i
    if w.length ≥ minLength then
      match d.get? n with
      | none => return d.put n [w]
      | some ws => return d.put n (ws ++ [w])
    else return d
  else return d

/-- the filter for one value `v`, patterns.py 106: `reduce(lambda a, b: a*b, [v not in word for word in values
if word != v])`. `v in word` asks whether the list `v` is an *element* of `word`; `isElem v x` is `v == x` for an
element `x`. -/
def keep (isElem : List α → α → Bool) (values : List (List α)) (v : List α) : Py Bool :=
  match (values.filter fun word => word ≠ v).map fun word => !(word.any (isElem v)) with
  | [] => .error .type
  | b :: bs => .ok (bs.foldl (· && ·) b)

/-- one iteration of the second loop, patterns.py 102-106 -/
def filterGroup (isElem : List α → α → Bool) (repeats : List (List α)) (values : List (List α)) : Py (List (List α)) :=
  if values.length = 1 then return repeats ++ values
  else values.foldlM (fun acc v => do
    let b ← keep isElem values v
    if b then return acc ++ [v] else return acc) repeats

/-- `find_maximal_repeats`, patterns.py 83-107 -/
def findMaximal (dollar : α) (isElem : List α → α → Bool) (seq : List α) (minLength : Nat) : Py (List (List α)) := do
  let wt ← create dollar seq
  let d ← (List.range' 1 (wt.2.size - 1)).foldlM (collect dollar wt.1 wt.2 minLength) []
  d.values.foldlM (filterGroup isElem) []

/-- `find_super_maximal_repeats`, patterns.py 109-114 -/
def findSuperMaximal (dollar : α) (isElem : List α → α → Bool) (seq : List α) (minLength : Nat) : Py (List (List α)) := do
  let ms ← findMaximal dollar isElem seq minLength
  let r ← filterSuper ms
  return r.1

/-- `find_near_super_maximal_repeats`, patterns.py 136-162: the near super maximal repeats and the super
maximal repeats among them -/
def findNearSuper (dollar : α) (isElem : List α → α → Bool) (seq : List α) (minLength : Nat) :
    Py (List (List α) × List (List α)) := do
  let ms ← findMaximal dollar isElem seq minLength
  nearSuper seq ms

/-- the loop of `get_maximal_repeats_over_log` over the separators in one repeat, patterns.py 334-339: the
remaining positions of separators and the start `i` of the current piece -/
def pieces (r : List α) : List Nat → Nat → List (List α)
  | [], i => [r.drop i]
  | j :: js, i => pySlice r i j :: pieces r js (j + 1)

/-- `reduce(lambda a, b: a + [trace_separator] + b, log)`, patterns.py 326 -/
def concatLog (sep : α) : List (List α) → Py (List α)
  | [] => .error .type
  | t :: ts => .ok (ts.foldl (fun a b => a ++ [sep] ++ b) t)

/-- `get_maximal_repeats_over_log`, patterns.py 324-341, for a separator of one character, so that searching
for the string finds the one-element list; the set is a list without duplicates, its order is not specified -/
def repeatsOverLog (dollar : α) (isElem : List α → α → Bool) (sep : α) (log : List (List α)) (minLength : Nat) :
    Py (List (List α)) := do
  let c ← concatLog sep log
  let rs ← findSuperMaximal dollar isElem c minLength
  let ps ← rs.mapM fun r => do
    let occ ← searchAll r [sep]
    return pieces r occ 0
  return (ps.flatten.dedup).filter fun w => decide (w.length ≥ minLength)

/-- `is_maximal_pair`, patterns.py 61-81, for a sequence that is a list: `sequence[subsequence]` indexes the
list with a tuple -/
def isMaximalPair (_sequence : List α) (a b : Nat × Nat) : Py Bool :=
  if a.1 ≠ b.1 then .error .type else .ok false

end
end Prolothar.SuffixTree
