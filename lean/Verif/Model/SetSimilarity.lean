import Verif.Model.Py
import Mathlib.Data.Finset.Card
import Mathlib.Data.Rat.Defs
import Mathlib.Algebra.Order.Ring.Rat
/-
Model of /repo/prolothar_common/collections/set_similarity.py. Python sets are `Finset`s, the
float quotient is the exact rational quotient; division by zero raises ZeroDivisionError.
-/
namespace Prolothar.SetSimilarity
variable {α : Type} [DecidableEq α]

/-- python `/` on integers; used for set_similarity.py 20-25 -/
def pyDiv (a b : Int) : Py Rat :=
  if b = 0 then .error .zeroDivision else .ok ((a : Rat) / (b : Rat))

/-- `sorensen_dice_coefficient`, set_similarity.py 20-25. -/
def dice (a b : Finset α) : Py Rat :=
  if a.card = 0 ∧ b.card = 0 then .ok 1
  else pyDiv (2 * (a ∩ b).card) (a.card + b.card)

/-- `jaccard_index`, set_similarity.py 27-35. -/
def jaccard (a b : Finset α) : Py Rat :=
  if a.card = 0 ∧ b.card = 0 then .ok 1
  else pyDiv (a ∩ b).card ((a.card : Int) + b.card - (a ∩ b).card)

/-- `overlap_coefficient`, set_similarity.py 37-45. -/
def overlap (a b : Finset α) : Py Rat :=
  if a.card = 0 ∧ b.card = 0 then .ok 1
  else pyDiv (a ∩ b).card (min (a.card : Int) b.card)

end Prolothar.SetSimilarity
