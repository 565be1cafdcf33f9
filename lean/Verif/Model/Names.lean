import Mathlib.Data.Nat.Digits.Defs
/-
  Model of the file names used by /repo: `f'...{n:08d}...'`, directories, `glob`, `sorted`.
  Names are lists of characters (Python compares strings by code point, lexicographically).
-/
namespace Verif.Names

/-- A file name. -/
abbrev Name := List Char

/-- the character of a decimal digit -/
def digitChar (d : Nat) : Char := Char.ofNat (48 + d)

/-- `f'{n:08d}'` for `n ≥ 0`: decimal digits, most significant first, padded with zeros on the left to at
    least eight characters (standard.py:73,108,238,345; base.py:843; postproc.py:104,109). -/
def pad8 (n : Nat) : Name :=
  let ds := (Nat.digits 10 n).reverse
  (List.replicate (8 - ds.length) 0 ++ ds).map digitChar

/-- standard.py:73,108 and base.py:843: `f'fft_block{i_blk:08d}_freq{i_freq:08d}.npy'`. -/
def fftName (b f : Nat) : Name := ['f','f','t','_','b','l','o','c','k'] ++ pad8 b ++ ['_','f','r','e','q'] ++ pad8 f ++ ['.','n','p','y']

/-- standard.py:238, streaming.py, postproc.py:104: `f'freq_idx_{f:08d}.npy'`. -/
def freqName (f : Nat) : Name := ['f','r','e','q','_','i','d','x','_'] ++ pad8 f ++ ['.','n','p','y']

/-- standard.py:345: `f'freq_idx_f{f:08d}_m{m:08d}.npy'`. -/
def modeName (f m : Nat) : Name :=
  ['f','r','e','q','_','i','d','x','_','f'] ++ pad8 f ++ ['_','m'] ++ pad8 m ++ ['.','n','p','y']

/-- `glob(pre + '*' + suf)` on one name: `*` matches any (also empty) string.  (Names never start with a
    dot and `pre`, `suf` contain no glob characters here.) -/
def globMatch (pre suf : Name) (n : Name) : Bool :=
  pre.isPrefixOf n && suf.isSuffixOf (n.drop pre.length)

/-- A directory: the files in the (arbitrary) order in which the operating system lists them. -/
abbrev Dir (α : Type) := List (Name × α)

/-- writing a file: replaces a file of the same name -/
def Dir.write {α} (d : Dir α) (n : Name) (c : α) : Dir α := (n, c) :: d.filter (fun e => e.1 ≠ n)

/-- content of a file (`none`: no such file) -/
def Dir.read {α} (d : Dir α) (n : Name) : Option α := (d.find? (fun e => e.1 = n)).map (·.2)

/-- `sorted(...)` of names -/
def sortNames (l : List Name) : List Name := l.mergeSort (fun a b => decide (a ≤ b))

end Verif.Names
