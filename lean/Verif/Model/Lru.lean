import Verif.Model.Py
import Verif.Model.Upd
/-
Model of the LRU cache (`lru.LRU(1000)`, third party) as used in
/repo/prolothar_common/mdl_utils.pyx 33, 123-132, and of `cached_lgamma`. Entries are listed from
most to least recently used. The cached function is a parameter; keys are compared by equality
(NaN keys are not modelled).
-/
namespace Prolothar.Lru
variable {κ ν : Type} [DecidableEq κ]

/-- `cache[x]`: `none` is KeyError; a hit becomes the most recently used entry. Used for mdl_utils.pyx 123-132. -/
def get (cache : List (κ × ν)) (x : κ) : Option (ν × List (κ × ν)) :=
  match cache.find? (fun p => decide (p.1 = x)) with
  | some p => some (p.2, p :: cache.filter (fun q => decide (q.1 ≠ x)))
  | none => none

/-- `cache[x] = y`: evicts the least recently used entries beyond the capacity. Used for mdl_utils.pyx 123-132. -/
def set (cap : Nat) (cache : List (κ × ν)) (x : κ) (y : ν) : List (κ × ν) :=
  ((x, y) :: cache.filter (fun q => decide (q.1 ≠ x))).take cap

/-- `cached_lgamma`, mdl_utils.pyx 123-132: the result and the cache after the call. -/
def cachedCall (f : κ → ν) (cap : Nat) (cache : List (κ × ν)) (x : κ) : ν × List (κ × ν) :=
  match get cache x with
  | some r => r
  | none => let y := f x; (y, set cap cache x y)

/-- a history of calls: all results and the final cache; used for mdl_utils.pyx 123-132 -/
def runCalls (f : κ → ν) (cap : Nat) : List κ → List (κ × ν) → List ν × List (κ × ν)
  | [], cache => ([], cache)
  | x :: xs, cache =>
    let r := cachedCall f cap cache x
    let rest := runCalls f cap xs r.2
    (r.1 :: rest.1, rest.2)

/-- where a call of `cached_lgamma` in one of several threads is, mdl_utils.pyx 123-132 -/
inductive TPc (ν : Type)
  /-- before `_LGAMMA_CACHE[x]`, 128 -/
  | lookup
  /-- after KeyError, before `lgamma(x)`, 130 -/
  | missed
  /-- before `_LGAMMA_CACHE[x] = y`, 131 -/
  | computed (y : ν)
  | returned (y : ν)

/-- One step of the calls `cached_lgamma(arg i)`, `i` any call, that run at the same time in threads, mdl_utils.pyx 123-132. Each access of
the cache is one step (the cache is a C extension and is accessed with the interpreter lock held); threads change only in between.
A thread with several calls is several calls here, as a call may start at any time. -/
inductive TStep (f : κ → ν) (cap : Nat) (arg : Nat → κ) : List (κ × ν) × (Nat → TPc ν) → List (κ × ν) × (Nat → TPc ν) → Prop
  | hit (cache cache' : List (κ × ν)) (pc : Nat → TPc ν) (i : Nat) (y : ν) (h : pc i = .lookup) (hg : get cache (arg i) = some (y, cache')) :
      TStep f cap arg (cache, pc) (cache', upd pc i (.returned y))
  | miss (cache : List (κ × ν)) (pc : Nat → TPc ν) (i : Nat) (h : pc i = .lookup) (hg : get cache (arg i) = none) :
      TStep f cap arg (cache, pc) (cache, upd pc i .missed)
  | compute (cache : List (κ × ν)) (pc : Nat → TPc ν) (i : Nat) (h : pc i = .missed) :
      TStep f cap arg (cache, pc) (cache, upd pc i (.computed (f (arg i))))
  | store (cache : List (κ × ν)) (pc : Nat → TPc ν) (i : Nat) (y : ν) (h : pc i = .computed y) :
      TStep f cap arg (cache, pc) (set cap cache (arg i) y, upd pc i (.returned y))

end Prolothar.Lru
