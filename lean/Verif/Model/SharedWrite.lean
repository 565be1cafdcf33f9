import Mathlib.Tactic.Common
/-
  `with open(path, 'w') as f: yaml.dump(params, f)` executed by every rank on the same file
  (/repo/pyspod/spod/utils.py:212-213, 430-431, pod/utils.py:122-123): POSIX semantics of opening with truncation and of
  writing through one file descriptor per process.
-/
namespace Verif.Shared

/-- A file: its bytes.  A write beyond the end fills the gap with zero bytes (POSIX). -/
abbrev Bytes := List Nat

/-- POSIX `write` of `new` at offset `o` -/
def writeAt (file : Bytes) (o : Nat) (new : Bytes) : Bytes :=
  (file ++ List.replicate (o - file.length) 0).take o ++ new ++ file.drop (o + new.length)

/-- State: the file and, for every rank, how many bytes it has written (`none`: it has not opened the file yet). -/
structure State where
  file : Bytes
  pos : Nat → Option Nat

/-- Steps of the ranks `r < p`, all writing the content `c`: open (truncates the file), or write the next piece, of any
    length (buffering decides). -/
inductive Step (p : Nat) (c : Bytes) : State → State → Prop
  | opened (S : State) (r : Nat) (hr : r < p) (h : S.pos r = none) :
      Step p c S ⟨[], fun q => if q = r then some 0 else S.pos q⟩
  | write (S : State) (r o n : Nat) (hr : r < p) (h : S.pos r = some o) (hn : o + n ≤ c.length) :
      Step p c S ⟨writeAt S.file o ((c.drop o).take n), fun q => if q = r then some (o + n) else S.pos q⟩

/-- runs from any earlier content of the file -/
inductive Reach (p : Nat) (c old : Bytes) : State → Prop
  | init : Reach p c old ⟨old, fun _ => none⟩
  | step {S S'} : Reach p c old S → Step p c S S' → Reach p c old S'

/-- every rank has written everything -/
def Done (p : Nat) (c : Bytes) (S : State) : Prop := ∀ r < p, S.pos r = some c.length

end Verif.Shared
