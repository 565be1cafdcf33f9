import Verif.Model.Reader
import Mathlib.Data.Rat.Floor
import Mathlib.Algebra.Module.Defs
import Mathlib.Algebra.Field.Defs
import Mathlib.Algebra.Star.Basic
import Mathlib.Algebra.BigOperators.Group.Finset.Basic
/-
  Model of the set-up part of /repo/pyspod/spod/base.py and of the block handling of
  /repo/pyspod/spod/standard.py (everything up to and including the DFT of one block).
  Exact arithmetic.
-/
namespace Verif.Spod
open Verif Verif.Par Verif.Rd

/-! ### Overlap and blocks -/

/-- base.py:115-117.  `int(np.ceil(n_dft * overlap / 100))`, rejected when larger than `n_dft - 1`.
    (Any rational percentage, also negative ones: the code does not check the sign.) -/
def nOverlap (nDft : Int) (overlap : ℚ) : Except String Int :=
  let o : Int := ⌈(nDft : ℚ) * overlap / 100⌉
  if o > nDft - 1 then .error "Overlap is too large." else .ok o

/-- base.py:432-435 (Python `//` is floor division). -/
def nBlocks (nt nDft nOvlp : Int) : Int := (nt - nOvlp).fdiv (nDft - nOvlp)

/-- base.py:465-466. -/
def feasible (nDft nBlk : Int) : Except String Unit :=
  if nDft < 4 ∨ nBlk < 2 then .error "Spectral estimation parameters not meaningful." else .ok ()

/-- standard.py:160-161. -/
def offset (nt nDft nOvlp i : Int) : Int := min (i * (nDft - nOvlp) + nDft) nt - nDft

/-! ### Cutting a block out of the data -/

/-- a piece of the dictionary of the two-stage reader: `s`, `e`, `v` (reader.py:398-400) -/
abbrev Piece (β : Type) := Nat × Nat × List β

/-- standard.py:373-388, loop over the pieces; state `(cnt, bstart, Q_blk)`.
    `none` = ValueError of a numpy assignment with mismatched shapes. -/
def blockLoop {β} (stop : Nat) : List (Piece β) → Nat × Nat × List β → Option (Nat × Nat × List β)
  | [], st => some st
  | (vs, ve, v) :: rest, (cnt, bstart, buf) =>
    let rs := max vs bstart
    let re := min ve stop
    if re > rs then
      match assignSlice buf cnt (cnt + (re - rs)) (pslice v (rs - vs) (re - vs)) with
      | some buf' => blockLoop stop rest (cnt + (re - rs), bstart + (re - rs), buf')
      | none => none
    else blockLoop stop rest (cnt, bstart, buf)

/-- standard.py:367-402 `_get_block(start, end)` for dictionary data.  `junk` is the content of `np.empty`.
    Result: the block and the remaining pieces; `none` = AssertionError / ValueError / IndexError
    (`list(self.data)[-1]` of an empty dict, `last_val[0,...]` of an empty last piece, line 401). -/
def getBlock {β} (junk : β) (nDft : Nat) (data : List (Piece β)) (start stop : Nat) :
    Option (List β × List (Piece β)) :=
  match data.getLast? with
  | none => none
  | some (_, _, lastVal) =>
    match blockLoop stop data (0, start, List.replicate nDft junk) with
    | none => none
    | some (cnt, _, buf) =>
      if (cnt : Int) ≠ (stop : Int) - start then none else
      let data' := data.filter fun p => ¬ start > p.2.1
      if lastVal.length = 0 then none else some (buf, data')

/-- The sequence of calls made by `fit` (standard.py:93-98): the dictionary is threaded through. -/
def getBlocks {β} (junk : β) (nDft : Nat) : List (Piece β) → List Nat → Option (List (List β))
  | _, [] => some []
  | data, s :: ss =>
    match getBlock junk nDft data s (s + nDft) with
    | none => none
    | some (b, data') => (getBlocks junk nDft data' ss).map (b :: ·)

/-- standard.py:404-407 for array data. -/
def getBlockArr {β} (data : List β) (start stop : Nat) : List β := pslice data start stop

/-! ### Means -/

section Mean
variable {K β : Type} [Field K] [AddCommGroup β] [Module K β]

/-- base.py:601-614, array branch: `nb` chunks of `nt // nb` snapshots and the remainder
    (also pod/base.py:351-370 with `nb = 2`). -/
def longTMeanArr (K) [Field K] [Module K β] (nb : Nat) (data : List β) : β :=
  let nt := data.length
  let q := nt / nb
  let r := nt % nb
  let tSum := (List.range nb).foldl (fun acc i => acc + (pslice data (i * q) (i * q + q)).sum) 0
  let tSum := if r > 0 then tSum + (pslice data (nt - r) nt).sum else tSum
  (nt : K)⁻¹ • tSum

/-- base.py:591-600,615, dictionary branch.  `none` = IndexError of `last_val[0,...]` (line 594). -/
def longTMeanDict (K) [Field K] [Module K β] (nt : Nat) (data : List (Piece β)) : Option β :=
  match data.getLast? with
  | none => none
  | some (_, _, lastVal) =>
    if lastVal.length = 0 then none
    else some ((nt : K)⁻¹ • data.foldl (fun acc p => acc + p.2.2.sum) 0)

/-- Python `str.lower()` (base.py:576, standard.py:170).  Simplification: ASCII letters only, other
    characters are left unchanged; none of the accepted names has a non-ASCII character. -/
def lower (s : String) : String := String.ofList (s.toList.map Char.toLower)

/-- The values of `mean_type` accepted by `select_mean`. -/
inductive MeanType | longtime | blockwise | zero
  deriving DecidableEq

/-- base.py:574-583: comparison after `.lower()`; anything else is a ValueError. -/
def parseMean (s : String) : Except String MeanType :=
  let s := lower s
  if s = "longtime" then .ok .longtime
  else if s = "blockwise" then .ok .blockwise
  else if s = "zero" then .ok .zero
  else .error s

/-- base.py:578-580: `_t_mean`. -/
def tMean (m : MeanType) (lt : β) : β :=
  match m with
  | .longtime => lt
  | .blockwise => 0
  | .zero => 0

/-- `np.mean(Q_blk, axis=0)` -/
def blkMean (K) [Field K] [Module K β] (blk : List β) : β := (blk.length : K)⁻¹ • blk.sum

/-- standard.py:166-171. -/
def subtractMean (K) [Field K] [Module K β] (m : MeanType) (lt : β) (blk : List β) : List β :=
  let b := blk.map (· - tMean m lt)
  if m = .blockwise then b.map (· - blkMean K b) else b

end Mean

/-- standard.py:173-179 for one grid point and one block (`eps4 = 4*finfo(float).eps`): divide by the
    unbiased variance, except where it is below the threshold. -/
def normalizeBlk {K} [Field K] [LT K] [DecidableLT K] (eps4 : K) (blk : List K) : List K :=
  let mean := (blk.length : K)⁻¹ * blk.sum
  let var := (blk.map fun x => (x - mean) ^ 2).sum / ((blk.length : K) - 1)
  let var := if var < eps4 then 1 else var
  blk.map (· / var)

/-- standard.py:181-182: multiply by the window along time. -/
def applyWindow {K} [Mul K] (w blk : List K) : List K := List.zipWith (· * ·) blk w

/-- The first part of `fit` up to the transforms (base.py:467-470 then standard.py:93-98,157-182), at one
    grid point: `select_mean` runs before any block is processed.  `blocks` are the raw blocks. -/
def prepareBlocks {K} [Field K] [LT K] [DecidableLT K] (meanType : String) (normalize : Bool) (eps4 : K)
    (w : List K) (lt : K) (blocks : List (List K)) : Except String (List (List K)) :=
  match parseMean meanType with
  | .error e => .error e
  | .ok m => .ok (blocks.map fun blk =>
      let b := subtractMean K m lt blk
      let b := if normalize then normalizeBlk eps4 b else b
      applyWindow w b)

/-! ### Frequencies and the transform of one block -/

section Freq
variable {K : Type} [Field K]

/-- base.py:620-631. -/
def freqAxis (nDft : Nat) (dt : K) (isreal fullspectrum : Bool) : List K :=
  let freq := (List.range nDft).map fun (k : Nat) => ((k : K) / dt) / nDft
  if fullspectrum then freq
  else if isreal then (List.range (nDft / 2 + 1)).map fun (k : Nat) => (k : K) / nDft / dt
  else if nDft % 2 = 0 then
    freq.take (nDft / 2 + 1) ++ (freq.drop (nDft / 2 + 1)).map (· - 1 / dt)
  else
    freq.take ((nDft + 1) / 2 + 1) ++ (freq.drop ((nDft + 1) / 2 + 1)).map (· - 1 / dt)

end Freq

/-- numpy's DFT, `X_k = Σ_t x_t ω^{tk}` with `ω = exp(-2πi/n)`; the only facts used about `ω` are stated
    as hypotheses where needed. -/
def dftBin {R} [CommSemiring R] (ω : R) (x : List R) (k : Nat) : R :=
  ∑ t ∈ Finset.range x.length, x.getD t 0 * ω ^ (t * k)

/-- Number of stored frequencies (`_n_freq`, base.py:631). -/
def nFreq (nDft : Nat) (isreal fullspectrum : Bool) : Nat :=
  if fullspectrum then nDft else if isreal then nDft / 2 + 1 else nDft

/-- standard.py:184-187: scaled transform of a (prepared) block; `rfft` returns bins `0 … n/2` of the same
    transform (numpy contract), and `fft(...)[0:n_freq]` the first `n_freq`. -/
def blockHat {R} [Field R] (ω winWeight : R) (isreal fullspectrum : Bool) (x : List R) : List R :=
  (List.range (nFreq x.length isreal fullspectrum)).map fun k => winWeight / (x.length : R) * dftBin ω x k

/-- base.py:504 `1 / np.mean(window)` -/
def winWeight {R} [Field R] (w : List R) : R := 1 / (w.sum / (w.length : R))

/-- standard.py:355-357: factor applied to row `f` of the eigenvalue array (`L[1:-1,:] = 2 * L[1:-1,:]`). -/
def oneSidedFactor (isreal : Bool) (nf f : Nat) : Nat :=
  if isreal ∧ 1 ≤ f ∧ f + 1 < nf then 2 else 1

end Verif.Spod
