import Verif.Model.Dict
/-
Reading integer encoded transactions: lines of integers separated by single blanks.
-/
namespace Prolothar.Spec.Transactions
open Prolothar

/-- the words of a line -/
def words (line : List Char) : List (List Char) := if line = [] then [] else line.splitOn ' '

/-- the lines of a text in which every line is terminated by a line break -/
def lines (text : List Char) : List (List Char) := (text.splitOn '\n').dropLast

/-- a line of integers, decoded with a dictionary -/
def decodeLine {A : Type} (d : Dict Int A) (line : List Char) : Option (List A) :=
  (words line).mapM fun w => do let i ← (String.ofList w).toInt?; d.get? i

/-- a DAT file -/
def decodeDat {A : Type} (d : Dict Int A) (text : List Char) : Option (List (List A)) := (lines text).mapM (decodeLine d)

/-- a row of a FIC file: `<length>: <integers>` -/
def decodeRow {A : Type} (d : Dict Int A) (row : List Char) : Option (Int × List A) :=
  match row.splitOn ':' with
  | [n, ' ' :: rest] => do let k ← (String.ofList n).toInt?; let l ← decodeLine d rest; return (k, l)
  | _ => none

/-- the number of transactions that the second line of a FIC file announces, `mi: nR=<number> …` -/
def announced (text : List Char) : Option Nat :=
  match lines text with
  | _ :: mi :: _ => (String.ofList ((mi.drop 7).takeWhile (· ≠ ' '))).toNat?
  | _ => none

/-- the check a reader of a FIC file can make: five lines of header and as many rows as announced -/
def ficComplete (text : List Char) : Prop := (announced text).map (· + 5) = some (lines text).length

end Prolothar.Spec.Transactions
