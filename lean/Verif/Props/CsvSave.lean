import Verif.Model.CsvWrites
import Verif.Props.LogExport
import Verif.Props.TransactionFiles
/-
C189: interrupted exports of event logs to csv files.
-/
namespace Prolothar.LogTable
open Prolothar.EventLog Prolothar.Transactions
variable {I A V : Type}

/-- the log of the first `k` events of a log -/
def firstEvents : Nat → Log I A V → Log I A V
  | 0, _ => []
  | _ + 1, [] => []
  | k + 1, t :: ts =>
    if k + 1 ≤ t.events.length then [{ t with events := t.events.take (k + 1) }] else t :: firstEvents (k + 1 - t.events.length) ts

theorem csvLines_cons (name : A → List Char) (t : Trace I A V) (ts : Log I A V) (sep : List Char) (n : Nat) :
    csvLines name (t :: ts) sep n = t.events.map (fun e => natStr n ++ sep ++ name e.activity) ++ csvLines name ts sep (n + 1) := by
  unfold csvLines
  rw [List.zipIdx_cons, List.flatMap_cons]

theorem csvLines_firstEvents (name : A → List Char) (sep : List Char) : ∀ (log : Log I A V) (k n : Nat),
    csvLines name (firstEvents k log) sep n = (csvLines name log sep n).take k
  | _, 0, n => by rw [firstEvents, List.take_zero]; rfl
  | [], k + 1, n => rfl
  | t :: ts, k + 1, n => by
    rw [firstEvents, csvLines_cons name t ts]
    split
    · rename_i h
      rw [csvLines_cons, List.take_append_of_le_length (by rw [List.length_map]; exact h), ← List.map_take]
      exact List.append_nil _
    · rename_i h
      rw [csvLines_cons, csvLines_firstEvents name sep ts, List.take_append, List.length_map]
      congr 1
      exact (List.take_of_length_le (by rw [List.length_map]; omega)).symm

/-- the beginnings of a text that consists of lines -/
theorem prefix_lines : ∀ (ls : List (List Char)) (p : List Char), p <+: ls.flatMap (fun l => l ++ ['\n']) →
    ∃ k part, k ≤ ls.length ∧ p = (ls.take k).flatMap (fun l => l ++ ['\n']) ++ part ∧ (part = [] ∨ ∃ line, ls[k]? = some line ∧ part <+: line)
  | [], p, h => ⟨0, [], Nat.le_refl _, by simpa using h, .inl rfl⟩
  | l :: ls, p, h => by
    rw [List.flatMap_cons, List.append_assoc] at h
    rcases List.prefix_or_prefix_of_prefix h (List.prefix_append l (['\n'] ++ ls.flatMap fun l => l ++ ['\n'])) with h1 | h1
    · exact ⟨0, p, Nat.zero_le _, by simp, .inr ⟨l, rfl, h1⟩⟩
    · obtain ⟨q, rfl⟩ := h1
      rw [List.prefix_append_right_inj] at h
      cases q with
      | nil => exact ⟨0, l, Nat.zero_le _, by simp, .inr ⟨l, rfl, List.prefix_rfl⟩⟩
      | cons c q =>
        rw [List.singleton_append, List.cons_prefix_cons] at h
        obtain ⟨rfl, h⟩ := h
        obtain ⟨k, part, i0, i1, i2⟩ := prefix_lines ls q h
        refine ⟨k + 1, part, Nat.succ_le_succ i0, ?_, i2⟩
        rw [List.take_succ_cons, List.flatMap_cons, i1]
        simp

theorem flatten_flatMap {α β : Type} (f : α → List (List β)) : ∀ l : List α, (l.flatMap f).flatten = l.flatMap fun x => (f x).flatten
  | [] => rfl
  | x :: l => by rw [List.flatMap_cons, List.flatMap_cons, List.flatten_append, flatten_flatMap f l]

theorem csvWrites_flatten (name : A → List Char) (log : Log I A V) (traceCol activityCol sep : List Char) :
    (csvWrites name log traceCol activityCol sep).flatten = csv name log traceCol activityCol sep := by
  unfold csvWrites csv traceWrites
  rw [List.flatten_append, flatten_flatMap]
  congr 1
  · simp
  · refine List.flatMap_congr fun p _ => ?_
    rw [flatten_flatMap]
    exact List.flatMap_congr fun e _ => by simp

/-- C189: an export that ends leaves exactly the csv file of the log, whatever was at the path before. -/
theorem C189_ended (name : A → List Char) (log : Log I A V) (traceCol activityCol sep : List Char) {old : Option (List Char)} {s : SaveState}
    (h : Saving (csvWrites name log traceCol activityCol sep) old s) (hc : s.pc = .closed) :
    s.disk = some (csv name log traceCol activityCol sep) := by
  rw [C185_ended h hc, csvWrites_flatten]

/-- C189: whenever an export is killed, the file is as before, or it holds a beginning of the header, or it is the csv file of the first events of
the log, possibly followed by a beginning of the line of the next event. -/
theorem C189_killed (name : A → List Char) (log : Log I A V) (traceCol activityCol sep : List Char) {old : Option (List Char)} {s : SaveState}
    (h : Saving (csvWrites name log traceCol activityCol sep) old s) :
    (s.pc = .before ∧ s.disk = old) ∨ (∃ p, s.disk = some p ∧ p <+: traceCol ++ sep ++ activityCol) ∨
    ∃ k part, s.disk = some (csv name (firstEvents k log) traceCol activityCol sep ++ part) ∧
      (part = [] ∨ ∃ line, (csvLines name log sep 0)[k]? = some line ∧ part <+: line) := by
  rcases C185_prefix h with h1 | ⟨p, h1, h2⟩
  · exact .inl h1
  · right
    rw [csvWrites_flatten, C119_lines] at h2
    obtain ⟨k, part, h3, h4, h5⟩ := prefix_lines _ p h2
    cases k with
    | zero =>
      refine .inl ⟨p, h1, ?_⟩
      rw [List.take_zero, List.flatMap_nil, List.nil_append] at h4
      subst h4
      rcases h5 with rfl | ⟨line, h5, h6⟩
      · exact List.nil_prefix
      · cases h5; exact h6
    | succ k =>
      refine .inr ⟨k, part, ?_, h5⟩
      rw [h1, h4, C119_lines, csvLines_firstEvents, List.take_succ_cons]

/-- C189: and each of these files is possible: that events are missing cannot be seen from the file. -/
theorem C189_undetectable (name : A → List Char) (log : Log I A V) (traceCol activityCol sep : List Char) (old : Option (List Char)) (k : Nat) :
    ∃ s, Saving (csvWrites name log traceCol activityCol sep) old s ∧ s.disk = some (csv name (firstEvents k log) traceCol activityCol sep) := by
  refine C185_any_prefix old ?_
  rw [csvWrites_flatten, C119_lines, C119_lines, csvLines_firstEvents, List.flatMap_cons, List.flatMap_cons, List.prefix_append_right_inj]
  conv_rhs => rw [← List.take_append_drop k (csvLines name log sep 0), List.flatMap_append]
  exact List.prefix_append _ _

/-- C189: the traces in such a file are beginnings of the traces of the log, at the same positions: a trace is either complete, or it is the last
one in the file. -/
theorem C189_beginnings : ∀ (log : Log I A V) (k : Nat),
    ∃ whole cut rest, log = whole ++ rest ∧ firstEvents k log = whole ++ cut ∧
      (cut = [] ∨ ∃ t ts n, rest = t :: ts ∧ 0 < n ∧ n ≤ t.events.length ∧ cut = [{ t with events := t.events.take n }]) ∧
      (k ≤ (log.flatMap (·.events)).length → ((firstEvents k log).flatMap (·.events)).length = k)
  | log, 0 => ⟨[], [], log, rfl, by rw [firstEvents]; rfl, .inl rfl, fun _ => by rw [firstEvents]; rfl⟩
  | [], k + 1 => ⟨[], [], [], rfl, rfl, .inl rfl, fun h => by simp at h⟩
  | t :: ts, k + 1 => by
    rw [firstEvents]
    split
    · rename_i h
      refine ⟨[], _, t :: ts, rfl, rfl, .inr ⟨t, ts, k + 1, rfl, by omega, h, rfl⟩, fun _ => ?_⟩
      simp only [List.flatMap_cons, List.flatMap_nil, List.append_nil, List.length_take]
      omega
    · rename_i h
      obtain ⟨whole, cut, rest, h1, h2, h3, h4⟩ := C189_beginnings ts (k + 1 - t.events.length)
      refine ⟨t :: whole, cut, rest, by rw [h1]; rfl, by rw [h2]; rfl, h3, fun hk => ?_⟩
      rw [List.flatMap_cons, List.length_append] at hk ⊢
      rw [h4 (by omega)]
      omega

/-! ### concrete cases -/

/-- C189: the beginning of a line can be a complete line for the reader, with a shortened name of the activity or a shortened number of the trace:
here the killed export of the trace `pay, send` is the file of the trace `pay, se` without the last line break -/
theorem C189_cut_name_witness : let log : Log Nat String Nat := [⟨0, [⟨"pay", [], none⟩, ⟨"send", [], none⟩], []⟩]
    let log' : Log Nat String Nat := [⟨0, [⟨"pay", [], none⟩, ⟨"se", [], none⟩], []⟩]
    (csv String.toList log' ['c'] ['a'] [';']).dropLast <+: csv String.toList log ['c'] ['a'] [';'] := by decide +kernel

/-- the first three events of a log with two traces -/
example : firstEvents 3 ([⟨0, [⟨"a", [], none⟩, ⟨"b", [], none⟩], []⟩, ⟨1, [⟨"c", [], none⟩, ⟨"d", [], none⟩], []⟩] : Log Nat String Nat) =
    [⟨0, [⟨"a", [], none⟩, ⟨"b", [], none⟩], []⟩, ⟨1, [⟨"c", [], none⟩], []⟩] := by decide +kernel

end Prolothar.LogTable
