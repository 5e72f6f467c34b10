import Verif.Model.Dataset
import Mathlib.Data.String.Basic
/-
Model of prolothar_common/models/dataset/transformer/*.py (TrainableQuantileBasedDiscretization is in
Model/QBins.lean). A transformer maps a heap and a dataset to a heap and a dataset; `str` is python's `str` on
attribute values and `fmt` the formatting of numbers in f-strings: both are parameters.
-/
namespace Prolothar.Data

variable {τ : Type}

/-- python's `<=` on values of one kind, made total; used for label_encoding.py 48-51 -/
def Val.le : Val → Val → Bool
  | .num a, .num b => decide (a ≤ b)
  | .str a, .str b => decide (a ≤ b)
  | .num _, .str _ => true
  | .str _, .num _ => false

/-- numbers as opposed to strings; used for label_encoding.py 48-51 -/
def Val.isNum : Val → Bool
  | .num _ => true
  | .str _ => false

/-- `sorted(values)`: comparing a number and a string raises a TypeError, and every comparison sort compares such a
pair if there is one; used for label_encoding.py 48-51 -/
def pySorted (l : List Val) : Py (List Val) :=
  if l.length ≤ 1 ∨ l.all Val.isNum ∨ l.all (fun v => !v.isNum) then .ok (l.insertionSort fun a b => Val.le a b = true)
  else .error .type

/-- `[instance[name] for instance in dataset]`; used for label_encoding.py 47-65 -/
def Dataset.column (h : Heap τ) (d : Dataset) (name : String) : Py (List Val) :=
  d.instances.mapM fun a => (h a).features.getItem name

/-- label_encoding.py 48-51, one_hot_encoding.py 54-57: the values to encode -/
def possibleValues (possible : Option (Dict String (List Val))) (name : String) (attr : Attr) : Py (List Val) :=
  match possible with
  | some p => do let s ← p.getItem name; pySorted s
  | none => pySorted attr.values

/-- `value_map`, label_encoding.py 58 -/
def valueMap (pv : List Val) : Dict Val Val := pv.zipIdx.foldl (fun m e => m.put e.1 (.num e.2)) []

/-- `__transform_attribute`, label_encoding.py 47-65; python's booleans are numbers here, so the test for them (55) is
not modelled -/
def labelAttr (possible : Option (Dict String (List Val))) (s : Heap τ × Dataset) (e : String × Attr) : Py (Heap τ × Dataset) := do
  let pv ← possibleValues possible e.1 e.2
  if pv ≠ [] ∧ pv = (List.range pv.length).map (fun i : Nat => Val.num (i : Rat)) then
    return s
  else
    let col ← s.2.column s.1 e.1
    let enc ← col.mapM (valueMap pv).getItem
    let s ← s.2.removeAttribute s.1 e.1
    s.2.addCategorical s.1 e.1 enc

/-- `inplace_transform`, label_encoding.py 42-45: the loop runs over a list of the attributes before the
transformation -/
def labelEncode (possible : Option (Dict String (List Val))) (h : Heap τ) (d : Dataset) : Py (Heap τ × Dataset) :=
  (d.attrs.filter fun e => e.2.categorical).foldlM (labelAttr possible) (h, d)

/-- one_hot_encoding.py 64-72, for one value -/
def oneHotValue (name join : String) (str : Val → String) (s : Heap τ × Dataset) (v : Val) : Py (Heap τ × Dataset) := do
  let col ← s.2.column s.1 name
  s.2.addCategorical s.1 (name ++ join ++ str v) (col.map fun x => if x = v then Val.num 1 else Val.num 0)

/-- `__transform_attribute`, one_hot_encoding.py 53-73 -/
def oneHotAttr (possible : Option (Dict String (List Val))) (join : String) (str : Val → String) (s : Heap τ × Dataset)
    (e : String × Attr) : Py (Heap τ × Dataset) := do
  let pv ← possibleValues possible e.1 e.2
  if pv = [.num 0, .num 1] then
    return s
  else
    let s ← pv.foldlM (oneHotValue e.1 join str) s
    s.2.removeAttribute s.1 e.1

/-- `inplace_transform`, one_hot_encoding.py 48-51 -/
def oneHotEncode (possible : Option (Dict String (List Val))) (join : String) (str : Val → String) (h : Heap τ)
    (d : Dataset) : Py (Heap τ × Dataset) :=
  (d.attrs.filter fun e => e.2.categorical).foldlM (oneHotAttr possible join str) (h, d)

/-- arithmetic on a value: strings raise a TypeError; used for min_max_scaling.py 48-58 -/
def Val.toNum : Val → Py Rat
  | .num q => .ok q
  | .str _ => .error .type

/-- `min(values)`: a ValueError for the empty list; used for min_max_scaling.py 48-58 -/
def pyMin : List Rat → Py Rat
  | [] => .error .value
  | x :: l => .ok (l.foldl (fun m v => if v < m then v else m) x)

/-- `max(values)`; used for min_max_scaling.py 48-58 -/
def pyMax : List Rat → Py Rat
  | [] => .error .value
  | x :: l => .ok (l.foldl (fun m v => if m < v then v else m) x)

/-- min_max_scaling.py 53-55 -/
def scaleValue (lo hi mn mx v : Rat) : Py Rat :=
  if mx - mn = 0 then .error .zeroDivision else .ok ((v - mn) / (mx - mn) * (hi - lo) + lo)

/-- `__transform_attribute`, min_max_scaling.py 48-58; numbers are exact -/
def minMaxAttr (lo hi : Rat) (s : Heap τ × Dataset) (e : String × Attr) : Py (Heap τ × Dataset) := do
  let col ← s.2.column s.1 e.1
  let nums ← col.mapM Val.toNum
  let mn ← pyMin nums
  let mx ← pyMax nums
  let scaled ← nums.mapM (scaleValue lo hi mn mx)
  let s ← s.2.removeAttribute s.1 e.1
  s.2.addNumerical s.1 e.1 (scaled.map Val.num)

/-- `inplace_transform`, min_max_scaling.py 43-46 -/
def minMaxScale (lo hi : Rat) (h : Heap τ) (d : Dataset) : Py (Heap τ × Dataset) :=
  (d.attrs.filter fun e => !e.2.categorical).foldlM (minMaxAttr lo hi) (h, d)

/-- `statistics.quantiles(values, n=n, method='inclusive')` of the standard library; used for quantile_based_discretization.py 41-49 -/
def quantiles (values : List Rat) (n : Nat) : Py (List Rat) :=
  if n < 1 then .error .value
  else if values.length < 2 then .error .value
  else do
    let data := values.insertionSort fun a b => decide (a ≤ b) = true
    let m := values.length - 1
    (List.range (n - 1)).mapM fun i => do
      let j := (i + 1) * m / n
      let delta := (i + 1) * m % n
      let x ← pyGet data j
      let y ← pyGet data (j + 1)
      return (x * (n - delta) + y * delta) / n

/-- the label of a bucket: `closed` is the kind of its left bracket; used for quantile_based_discretization.py 56-60 -/
structure Bucket where
  closed : Bool
  lo : Rat
  hi : Rat
  deriving DecidableEq

/-- the text of the label; used for quantile_based_discretization.py 41-49 -/
def Bucket.text (fmt : Rat → String) (b : Bucket) : String :=
  (if b.closed then "[" else "(") ++ fmt b.lo ++ ", " ++ fmt b.hi ++ "]"

/-- the loop of `__get_label_for_value`, quantile_based_discretization.py 56-60; the last cut point is read only if
no interval matches -/
def bucketLoop (value mx : Rat) : List Rat → Py Bucket
  | [] => .error .index
  | [c] => .ok ⟨false, c, mx⟩
  | a :: b :: l => if a < value ∧ value ≤ b then .ok ⟨false, a, b⟩ else bucketLoop value mx (b :: l)

/-- `__get_label_for_value`, quantile_based_discretization.py 53-60 -/
def bucketOf (cuts : List Rat) (mn mx value : Rat) : Py Bucket := do
  let c ← pyGet cuts 0
  if value ≤ c then return ⟨true, mn, c⟩ else bucketLoop value mx cuts

/-- the new values, quantile_based_discretization.py 41-49. Simplification: strings among the values are a
`TypeError` here for every number of bins; the code raises `ValueError` or `IndexError` first if `bins` < 2. -/
def quantileLabels (bins : Int) (fmt : Rat → String) (str : Val → String) (attr : Attr) (col : List Val) : Py (List Val) :=
  if (attr.values.length : Int) > bins then do
    let nums ← col.mapM Val.toNum
    let cuts ← quantiles nums bins.toNat
    let mn ← pyMin nums
    let mx ← pyMax nums
    let bs ← nums.mapM (bucketOf cuts mn mx)
    return bs.map fun b => Val.str (b.text fmt)
  else .ok (col.map fun v => Val.str (str v))

/-- `__transform_attribute`, quantile_based_discretization.py 38-51 -/
def quantileAttr (bins : Int) (fmt : Rat → String) (str : Val → String) (s : Heap τ × Dataset) (e : String × Attr) :
    Py (Heap τ × Dataset) := do
  let col ← s.2.column s.1 e.1
  let attr ← s.2.attrs.getItem e.1
  let labels ← quantileLabels bins fmt str attr col
  let s ← s.2.removeAttribute s.1 e.1
  s.2.addCategorical s.1 e.1 labels

/-- `inplace_transform`, quantile_based_discretization.py 33-36 -/
def quantileDiscretize (bins : Int) (fmt : Rat → String) (str : Val → String) (h : Heap τ) (d : Dataset) : Py (Heap τ × Dataset) :=
  (d.attrs.filter fun e => !e.2.categorical).foldlM (quantileAttr bins fmt str) (h, d)

/-- remove_attrs_with_one_value.py 27-30 -/
def removeConstant (h : Heap τ) (d : Dataset) : Py (Heap τ × Dataset) :=
  (d.attrs.filter fun e => e.2.values.length == 1).foldlM (fun s e => s.2.removeAttribute s.1 e.1) (h, d)

/-- select_attributes.py 32-35 -/
def selectAttributes (names : List String) (h : Heap τ) (d : Dataset) : Py (Heap τ × Dataset) :=
  (d.attrs.filter fun e => decide (e.1 ∉ names)).foldlM (fun s e => s.2.removeAttribute s.1 e.1) (h, d)

/-- `DatasetTransformer.transform`, dataset_transformer.py 28-49; `next` is the first free address -/
def transform (f : Heap τ → Dataset → Py (Heap τ × Dataset)) (inplace : Bool) (next : Nat) (h : Heap τ) (d : Dataset) :
    Py (Heap τ × Dataset) := do
  let s ← if inplace then .ok (h, d) else d.copy h next
  f s.1 s.2

/-! ### noise on target sequences -/

variable {σ : Type}

/-- a random generator: the results of `random()` and of `randrange` (for `choice`), by number of the call; used for target_sequence_add_noise.py 49-51 -/
structure Rng where
  random : Nat → Rat
  index : Nat → Nat

/-- target_sequence_add_noise.py 49-51; `i` counts the calls -/
def noiseOrNot (alphabet : List σ) (p : Rat) (g : Rng) (i : Nat) : Py (List σ) :=
  if g.random i < p then
    if alphabet = [] then .error .index else (pyGet alphabet (g.index i % alphabet.length : Nat)).map fun x => [x]
  else .ok []

/-- the loop of `__apply_noise`, target_sequence_add_noise.py 44-46 -/
def addNoiseLoop (alphabet : List σ) (p : Rat) (g : Rng) : Nat → List σ → Py (List σ)
  | _, [] => .ok []
  | i, x :: l => do
    let n ← noiseOrNot alphabet p g i
    let r ← addNoiseLoop alphabet p g (i + 1) l
    return x :: (n ++ r)

/-- `__apply_noise`, target_sequence_add_noise.py 41-47 -/
def addNoise (alphabet : List σ) (p : Rat) (g : Rng) (seq : List σ) : Py (List σ) := do
  let n ← noiseOrNot alphabet p g 0
  let r ← addNoiseLoop alphabet p g 1 seq
  return n ++ r

/-- `__apply_noise`, target_sequence_remove_noise.py 38-42 -/
def removeNoise (p : Rat) (g : Rng) (seq : List σ) : List σ :=
  (seq.zipIdx.filter fun e => decide (g.random e.2 > p)).map (·.1)

/-- `__apply_noise`, target_sequence_swap_noise.py 54-71; the list is the stack, its head is on top -/
def swapNoise (p : Rat) (multiple : Bool) (g : Rng) : Nat → List σ → List σ
  | i, x :: y :: l =>
    if g.random i < p then
      if multiple then y :: swapNoise p multiple g (i + 1) (x :: l) else y :: x :: swapNoise p multiple g (i + 1) l
    else x :: swapNoise p multiple g (i + 1) (y :: l)
  | _, l => l
termination_by _ l => l.length

/-- the loops over the instances (`inplace_transform` of the three noises); `f k` uses the calls of the generator made
for the instance visited as number `k`; used for target_sequence_add_noise.py 37-39 -/
def noiseAll (f : Nat → List σ → Py (List σ)) (h : Heap (List σ)) (d : Dataset) : Py (Heap (List σ) × Dataset) := do
  let h ← d.instances.zipIdx.foldlM (fun h e => do
    let t ← f e.2 (h e.1).target
    return upd h e.1 { h e.1 with target := t }) h
  return (h, d)

end Prolothar.Data
