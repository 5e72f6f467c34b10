import Verif.Model.Py
/-
Model of the Boyer-Moore search in
/repo/prolothar_common/collections/list_utils.pyx, lines 24-130.
Lists are `List α` with decidable equality in place of python `==`/hash equality.
Integers are unbounded (`Int`), as in python.
-/
namespace Prolothar.BoyerMoore
variable {α : Type} [DecidableEq α]

/-- one iteration of `make_boyer_moore_char_table`, list_utils.pyx 87-88. The dict is a
function into `Option`; the assignment `table[needle[i]] = len(needle) - 1 - i` overwrites. -/
def charStep (needle : List α) (table : α → Option Int) (i : Nat) : α → Option Int :=
  match needle[i]? with
  | some c => fun x => if x = c then some ((needle.length : Int) - 1 - i) else table x
  | none => table

/-- `make_boyer_moore_char_table`, list_utils.pyx 81-89. -/
def charTable (needle : List α) : α → Option Int :=
  (List.range (needle.length - 1)).foldl (charStep needle) (fun _ => none)

/-- `is_prefix`, list_utils.pyx 107-116: compares `needle[i]` with `needle[j]`, `j` starting
at 0, for `i` from `p` to the end. The two moving indices are modelled by the two list
tails. -/
def isPrefixLoop : List α → List α → Bool
  | [], _ => true
  | _ :: _, [] => true
  | a :: as, b :: bs => if a ≠ b then false else isPrefixLoop as bs

/-- `is_prefix`, list_utils.pyx 107-116. -/
def isPrefix (needle : List α) (p : Nat) : Bool := isPrefixLoop (needle.drop p) needle

/-- loop of `suffix_length`, list_utils.pyx 118-130: `k` iterations are left
(`i = k - 1`), the partner index is `j`. -/
def suffixLengthLoop (needle : List α) : Nat → Nat → Nat
  | 0, _ => 0
  | k + 1, j => if needle[k]? = needle[j]? then suffixLengthLoop needle k (j - 1) + 1 else 0

/-- `suffix_length`, list_utils.pyx 118-130. -/
def suffixLength (needle : List α) (p : Nat) : Nat :=
  suffixLengthLoop needle (p + 1) (needle.length - 1)

/-- first loop of `make_boyer_moore_offset_table`, list_utils.pyx 98-101; `k` iterations
are left (`i = k - 1`), `lpp` is `last_prefix_position`. -/
def offsetLoop1 (needle : List α) : Nat → Int → List Int
  | 0, _ => []
  | k + 1, lpp =>
    let lpp' : Int := if isPrefix needle (k + 1) then (k : Int) + 1 else lpp
    (lpp' - k + needle.length - 1) :: offsetLoop1 needle k lpp'

/-- second loop of `make_boyer_moore_offset_table`, list_utils.pyx 102-104: one iteration. -/
def offsetStep2 (needle : List α) (table : List Int) (i : Nat) : Py (List Int) :=
  let slen := suffixLength needle i
  pySet table slen ((needle.length : Int) - 1 - i + slen)

/-- `make_boyer_moore_offset_table`, list_utils.pyx 91-105. -/
def offsetTable (needle : List α) : Py (List Int) :=
  (List.range (needle.length - 1)).foldlM (offsetStep2 needle)
    (offsetLoop1 needle needle.length needle.length)

/-- inner loop of `search_sublist_bm`, list_utils.pyx 73-77. Result: `inl i` for
`return i`, `inr (i, j)` for leaving the loop at a mismatch. -/
def innerLoop (l sublist : List α) : Nat → Int → Py (Int ⊕ (Int × Nat))
  | 0, i => do
    let a ← pyGet sublist (0 : Nat)
    let b ← pyGet l i
    if a = b then return .inl i else return .inr (i, 0)
  | j + 1, i => do
    let a ← pyGet sublist ((j + 1 : Nat) : Int)
    let b ← pyGet l i
    if a = b then innerLoop l sublist j (i - 1) else return .inr (i, j + 1)

/-- outer loop of `search_sublist_bm`, list_utils.pyx 71-79. The first argument bounds
the number of iterations; running out of it is `PyErr.diverge`. -/
def outerLoop (l sublist : List α) (ct : α → Option Int) (ot : List Int) : Nat → Int → Py Int
  | 0, _ => .error .diverge
  | fuel + 1, i =>
    if i < l.length then do
      match ← innerLoop l sublist (sublist.length - 1) i with
      | .inl r => return r
      | .inr (i', j) =>
        let off ← pyGet ot ((sublist.length : Int) - 1 - j)
        let c ← pyGet l i'
        outerLoop l sublist ct ot fuel (i' + max off ((ct c).getD 1))
    else
      return -1

/-- `search_sublist_bm` with both tables supplied, list_utils.pyx 59-79. -/
def searchWith (ct : α → Option Int) (ot : List Int) (l sublist : List α) : Py Int :=
  if sublist.length = 0 then return 0
  else outerLoop l sublist ct ot (l.length + 1) ((sublist.length : Int) - 1)

/-- `search_sublist_bm` without precomputed tables, list_utils.pyx 59-79. -/
def search (l sublist : List α) : Py Int :=
  if sublist.length = 0 then return 0
  else do
    let ct := charTable sublist
    let ot ← offsetTable sublist
    searchWith ct ot l sublist

/-- `is_sublist_bm`, list_utils.pyx 47-57, without precomputed tables. -/
def isSublist (l sublist : List α) : Py Bool := do
  let r ← search l sublist
  return decide (r ≥ 0)

/-- `is_sublist_bm`, list_utils.pyx 47-57, with precomputed tables. -/
def isSublistWith (ct : α → Option Int) (ot : List Int) (l sublist : List α) : Py Bool := do
  let r ← searchWith ct ot l sublist
  return decide (r ≥ 0)

/-- loop of `search_sublist_all_occurences`, list_utils.pyx 37-43. The first argument
bounds the number of iterations. -/
def allLoop (ct : α → Option Int) (ot : List Int) (l sublist : List α) :
    Nat → Nat → Int → Py (List Nat)
  | 0, _, _ => .error .diverge
  | fuel + 1, index, subindex =>
    if subindex ≥ 0 ∧ index ≤ l.length then do
      let index' := index + subindex.toNat
      let sub' ← searchWith ct ot (l.drop (index' + 1)) sublist
      let rest ← allLoop ct ot l sublist fuel (index' + 1) sub'
      return index' :: rest
    else return []

/-- `search_sublist_all_occurences`, list_utils.pyx 24-45. -/
def searchAll (l sublist : List α) : Py (List Nat) := do
  let ct := charTable sublist
  let ot ← offsetTable sublist
  let subindex ← searchWith ct ot l sublist
  allLoop ct ot l sublist (l.length + 2) 0 subindex

end Prolothar.BoyerMoore
