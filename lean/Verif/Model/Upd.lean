/-
Attributes of objects: functions from the identity of an object to the value of the attribute. Like `Py.lean`
this models the language, not repository code.
-/
namespace Prolothar

/-- the attribute (or dictionary) `f` after the assignment of `v` for `k` -/
def upd {κ ν : Type} [DecidableEq κ] (f : κ → ν) (k : κ) (v : ν) : κ → ν := fun x => if x = k then v else f x

@[simp] theorem upd_self {κ ν : Type} [DecidableEq κ] (f : κ → ν) (k : κ) (v : ν) : upd f k v k = v := by simp [upd]

theorem upd_ne {κ ν : Type} [DecidableEq κ] (f : κ → ν) {k x : κ} (v : ν) (h : x ≠ k) : upd f k v x = f x := by
  simp [upd, h]

end Prolothar
