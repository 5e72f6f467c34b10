import Verif.Model.ResultCache
import Mathlib.Logic.Relation
/-
Model of prolothar_common/testing/non_productive_result_cache.py for calls that run at the same time in any number of processes which
share the cache directory. The steps of a call are the system calls of the wrapper (non_productive_result_cache.py 32-39): the test for
the file, the evaluation, opening the file for writing (which creates it or makes it empty), writing the pickled result in pieces of
any size, closing; or opening for reading, reading in pieces of any size, unpickling. A process can be killed between any two steps.
Every process has its own position in the file; writing behind the end fills the gap with zero bytes (POSIX). Pickle is a parameter.
A process that makes several calls is several processes here, as a call may start at any time. File names without a slash.
-/
namespace Prolothar.CacheRace
variable {V : Type}

/-- a text of bytes, non_productive_result_cache.py 33, 37 -/
abbrev Bytes := List UInt8

/-- what the unpickler (standard library) knows after some bytes: the value, that it needs more, or that they are wrong; used for
non_productive_result_cache.py 34 -/
inductive Decoded (V : Type)
  | done (v : V)
  | more
  | bad
  deriving DecidableEq

/-- pickle (standard library): `dump` and `load`, non_productive_result_cache.py 34, 38 -/
structure Codec (V : Type) where
  encode : V → Bytes
  decode : Bytes → Decoded V

/-- what is known about pickle: reading stops at the end of a pickled value, and needs every byte of it (standard library); used for
non_productive_result_cache.py 34, 38 -/
structure Codec.Lawful (c : Codec V) : Prop where
  full : ∀ v rest, c.decode (c.encode v ++ rest) = .done v
  part : ∀ v n, n < (c.encode v).length → c.decode ((c.encode v).take n) = .more

/-- `write` at the position `d` of a file with the content `c` (POSIX); used for non_productive_result_cache.py 38 -/
def writeAt (c : Bytes) (d : Nat) (xs : Bytes) : Bytes :=
  (c ++ List.replicate (d - c.length) 0).take d ++ xs ++ c.drop (d + xs.length)

/-- where a call is, non_productive_result_cache.py 32-39 -/
inductive Pc (V : Type)
  /-- before `os.path.exists`, 32 -/
  | idle
  /-- there was no file: before the call of the function, 36 -/
  | missing
  /-- before `open(..., 'wb')`, 37 -/
  | evaluated (v : V)
  /-- in `dump`, 38: `d` bytes have been written -/
  | writing (v : V) (d : Nat)
  /-- there was a file: before `open(..., 'rb')`, 33 -/
  | found
  /-- in `load`, 34: the bytes that have been read -/
  | reading (got : Bytes)
  | returned (v : V)
  | raised
  /-- killed; `open_` is the number of bytes written if it was in `dump` -/
  | killed (open_ : Option Nat)

/-- a call: the name of its file, 28-31, and what its evaluation gives if there is one (`none`: an exception);
non_productive_result_cache.py 27-39 -/
structure Job (V : Type) where
  path : String
  ev : Option V

/-- the files of the directory, the calls, and as a ghost variable the evaluations so far; used for non_productive_result_cache.py 27-39 -/
structure St (V : Type) where
  files : String → Option Bytes
  pc : Nat → Pc V
  evals : List Nat

/-- before the first call, with an empty directory, non_productive_result_cache.py 23-27 -/
def St.init : St V := ⟨fun _ => none, fun _ => .idle, []⟩

/-- a call goes on -/
def St.go (s : St V) (i : Nat) (p : Pc V) : St V := { s with pc := upd s.pc i p }

/-- the number of written bytes if the process is in `dump`, non_productive_result_cache.py 37-38 -/
def Pc.opened : Pc V → Option Nat
  | .writing _ d => some d
  | _ => none

/-- the call has not ended; used for non_productive_result_cache.py 27-39 -/
def Pc.Alive : Pc V → Prop
  | .returned _ => False
  | .raised => False
  | .killed _ => False
  | _ => True

/-- One step of one of the calls, non_productive_result_cache.py 32-39. `chunk b d e` tells whether the bytes from `d` to `e` of `b` may
be written at once. -/
inductive Step (c : Codec V) (job : Nat → Job V) (chunk : Bytes → Nat → Nat → Prop) : St V → St V → Prop
  /-- `os.path.exists` is true, 32 -/
  | yes (s : St V) (i : Nat) (h : s.pc i = .idle) (b : Bytes) (hf : s.files (job i).path = some b) : Step c job chunk s (s.go i .found)
  /-- `os.path.exists` is false, 32 -/
  | no (s : St V) (i : Nat) (h : s.pc i = .idle) (hf : s.files (job i).path = none) : Step c job chunk s (s.go i .missing)
  /-- the function returns, 36 -/
  | eval (s : St V) (i : Nat) (h : s.pc i = .missing) (v : V) (hv : (job i).ev = some v) :
      Step c job chunk s { s.go i (.evaluated v) with evals := s.evals ++ [i] }
  /-- the function raises, 36 -/
  | evalRaise (s : St V) (i : Nat) (h : s.pc i = .missing) (hv : (job i).ev = none) :
      Step c job chunk s { s.go i .raised with evals := s.evals ++ [i] }
  /-- `open(result_cache_file, 'wb')`, 37 -/
  | openWrite (s : St V) (i : Nat) (v : V) (h : s.pc i = .evaluated v) :
      Step c job chunk s { s.go i (.writing v 0) with files := upd s.files (job i).path (some []) }
  /-- some bytes are written, 38 -/
  | write (s : St V) (i : Nat) (v : V) (d e : Nat) (h : s.pc i = .writing v d) (hd : d < e) (he : e ≤ (c.encode v).length)
      (hc : chunk (c.encode v) d e) (b : Bytes) (hf : s.files (job i).path = some b) :
      Step c job chunk s { s.go i (.writing v e) with
        files := upd s.files (job i).path (some (writeAt b d (((c.encode v).take e).drop d))) }
  /-- the file is closed and the result is returned, 39 -/
  | close (s : St V) (i : Nat) (v : V) (h : s.pc i = .writing v (c.encode v).length) : Step c job chunk s (s.go i (.returned v))
  /-- `open(result_cache_file, 'rb')`, 33 -/
  | openRead (s : St V) (i : Nat) (h : s.pc i = .found) : Step c job chunk s (s.go i (.reading []))
  /-- some bytes are read, 34 -/
  | read (s : St V) (i : Nat) (got : Bytes) (h : s.pc i = .reading got) (hm : c.decode got = .more) (b : Bytes)
      (hf : s.files (job i).path = some b) (n : Nat) (hn : 0 < n) (hl : got.length < b.length) :
      Step c job chunk s (s.go i (.reading (got ++ (b.drop got.length).take n)))
  /-- `load` returns, 34 -/
  | loaded (s : St V) (i : Nat) (got : Bytes) (h : s.pc i = .reading got) (v : V) (hv : c.decode got = .done v) :
      Step c job chunk s (s.go i (.returned v))
  /-- `load` raises because of wrong bytes, 34 -/
  | badBytes (s : St V) (i : Nat) (got : Bytes) (h : s.pc i = .reading got) (hv : c.decode got = .bad) : Step c job chunk s (s.go i .raised)
  /-- `load` raises because the file ends, 34 -/
  | eof (s : St V) (i : Nat) (got : Bytes) (h : s.pc i = .reading got) (hv : c.decode got = .more) (b : Bytes)
      (hf : s.files (job i).path = some b) (hl : b.length ≤ got.length) : Step c job chunk s (s.go i .raised)
  /-- the process is killed -/
  | kill (s : St V) (i : Nat) (h : (s.pc i).Alive) : Step c job chunk s (s.go i (.killed (s.pc i).opened))

/-- any number of steps of any of the calls in any order, non_productive_result_cache.py 27-39 -/
def Steps (c : Codec V) (job : Nat → Job V) (chunk : Bytes → Nat → Nat → Prop) : St V → St V → Prop :=
  Relation.ReflTransGen (Step c job chunk)

/-- pickled results are written in pieces of any size: more bytes than the buffer of the file object; non_productive_result_cache.py 38 -/
def anyChunk : Bytes → Nat → Nat → Prop := fun _ _ _ => True

/-- pickled results are written at once: they fit into the buffer of the file object and are written when it is closed;
non_productive_result_cache.py 37-38 -/
def whole : Bytes → Nat → Nat → Prop := fun b d e => d = 0 ∧ e = b.length

/-- `os.path.exists(cache_dir)` and `os.makedirs(cache_dir)` of the decorator, non_productive_result_cache.py 24-25, in several processes:
before, between and after the two calls -/
inductive MkPc
  | start
  | absent
  | ready
  | raised
  deriving DecidableEq

/-- one step of a decorator, non_productive_result_cache.py 24-25; the first component tells whether the directory exists -/
inductive MkStep : Bool × (Nat → MkPc) → Bool × (Nat → MkPc) → Prop
  | there (f : Nat → MkPc) (i : Nat) (h : f i = .start) : MkStep (true, f) (true, upd f i .ready)
  | notThere (f : Nat → MkPc) (i : Nat) (h : f i = .start) : MkStep (false, f) (false, upd f i .absent)
  | made (f : Nat → MkPc) (i : Nat) (h : f i = .absent) : MkStep (false, f) (true, upd f i .ready)
  /-- FileExistsError -/
  | fails (f : Nat → MkPc) (i : Nat) (h : f i = .absent) : MkStep (true, f) (true, upd f i .raised)

end Prolothar.CacheRace
