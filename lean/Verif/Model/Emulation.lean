import Verif.Model.SpodBase
import Mathlib.Algebra.Order.Field.Basic
import Mathlib.Algebra.Order.Group.Abs
/-
  Model of /repo/pyspod/emulation/base.py and of `extract_sequences`, `model_inference` of
  /repo/pyspod/emulation/neural_nets.py.  Exact arithmetic; `none` as a number stands for nan/inf.
  The neural network itself (keras) is an arbitrary function.
-/
namespace Verif.Emu
open Verif

section Scaling
variable {K : Type} [Field K] [LinearOrder K]

/-- `np.amax`/`max` of a list; `none` = ValueError on an empty one. -/
def amax : List K → Option K
  | [] => none
  | x :: xs => some (xs.foldl max x)

/-- `np.amin`/`min` -/
def amin : List K → Option K
  | [] => none
  | x :: xs => some (xs.foldl min x)

/-- `max(abs(max), abs(min))` of one list, with both multiplied by `s` first
    (`s = 10` for localmax: emulation/base.py:38-41, `s = 1` for globalmax: 43-46). -/
def absRange (s : K) (l : List K) : Option K :=
  match amax l, amin l with
  | some a, some b => some (max |a * s| |b * s|)
  | _, _ => none

/-- `max([max(l) for l in data])`, `min([min(l) for l in data])` (emulation/base.py:43-46) -/
def globalRange (data : List (List K)) : Option K :=
  match data.mapM amax, data.mapM amin with
  | some as, some bs => match amax as, amin bs with
    | some a, some b => some (max |a| |b|)
    | _, _ => none
  | _, _ => none

/-- emulation/base.py:37-49 and, part by part, 52-72: the scaling factors of the rows of `data`;
    `none` = ValueError on empty data. -/
def rowScales (normalization : String) (data : List (List K)) : Option (List K) :=
  if Spod.lower normalization = "localmax" then data.mapM (absRange 10)
  else if Spod.lower normalization = "globalmax" then
    (globalRange data).map fun v => List.replicate data.length v
  else some (List.replicate data.length 1)

/-- emulation/base.py:31-75 for real data. -/
def scalerReal (dataType normalization : String) (data : List (List K)) : Except String (List K) :=
  if Spod.lower dataType = "real" then
    match rowScales normalization data with
    | some v => .ok v
    | none => .error "ValueError"
  else .error "TypeError"

/-- emulation/base.py:50-75 for complex data (pairs real, imaginary); line 50 compares the type as
    given (no `lower`). -/
def scalerComplex (dataType normalization : String) (data : List (List (K × K))) : Except String (List (K × K)) :=
  if dataType = "complex" then
    match rowScales normalization (data.map fun r => r.map (·.1)), rowScales normalization (data.map fun r => r.map (·.2)) with
    | some a, some b => .ok (a.zip b)
    | _, _ => .error "ValueError"
  else .error "TypeError"

/-- numpy division: nan or inf for a zero divisor -/
def ndiv (x v : K) : Option K := if v = 0 then none else some (x / v)

/-- emulation/base.py:86-88 real: column by column division by the vector, i.e. row `i` by `vec[i]`. -/
def scaleReal (data : List (List K)) (vec : List K) : List (List (Option K)) :=
  List.zipWith (fun row v => row.map fun x => ndiv x v) data vec

/-- emulation/base.py:103-105 real -/
def descaleReal (data : List (List (Option K))) (vec : List K) : List (List (Option K)) :=
  List.zipWith (fun row v => row.map fun x => x.map (· * v)) data vec

/-- emulation/base.py:89-92 complex: real and imaginary parts separately. -/
def scaleComplex (data : List (List (K × K))) (vec : List (K × K)) : List (List (Option K × Option K)) :=
  List.zipWith (fun row v => row.map fun x => (ndiv x.1 v.1, ndiv x.2 v.2)) data vec

/-- emulation/base.py:106-109 complex -/
def descaleComplex (data : List (List (Option K × Option K))) (vec : List (K × K)) : List (List (Option K × Option K)) :=
  List.zipWith (fun row v => row.map fun x => (x.1.map (· * v.1), x.2.map (· * v.2))) data vec

/-- emulation/base.py:86,89 and 103,106: the comparison made by `scale_data` and `descale_data`. -/
def acceptsScaling (dataType : String) : Bool := Spod.lower dataType = "real" || Spod.lower dataType = "complex"

end Scaling

/-! ### Training sequences (neural_nets.py:91-123) -/

/-- neural_nets.py:98 `total_size` -/
def totalSize (nt nIn nOut fh : Nat) : Int := (nt : Int) - nIn - nOut - fh + 1

/-- neural_nets.py:107-109: the two index rows of turn `t` (`fh >= 1`, so the truncated
    subtraction is exact). -/
def seqIdx (nIn nOut fh t : Nat) : List Nat × List Nat :=
  (List.range' t nIn, List.range' (t + nIn + fh - 1) nOut)

/-- fancy indexing `states[idx]`; `none` = IndexError -/
def takeIdx {α} (states : List α) (idx : List Nat) : Option (List α) := idx.mapM fun i => states[i]?

/-- neural_nets.py:91-123: `states` = snapshots (columns of `data`); the list of (input, target) pairs. -/
def extractSequences {α} (nIn nOut fh : Nat) (states : List α) : Except String (List (List α × List α)) :=
  if fh < 1 then .error "ValueError" else
  let total := totalSize states.length nIn nOut fh
  if total < 0 then .error "ValueError" else  -- np.zeros with a negative dimension
  match (List.range total.toNat).mapM (fun (t : Nat) =>
    match takeIdx states (seqIdx nIn nOut fh t).1, takeIdx states (seqIdx nIn nOut fh t).2 with
    | some a, some b => some (a, b)
    | _, _ => none) with
  | some l => .ok l
  | none => .error "IndexError"

/-! ### Inference (neural_nets.py:151-202) -/

/-- neural_nets.py:173 `range(n_seq_in, nt, n_seq_out)`: number of turns. -/
def turns (nt nIn nOut : Nat) : Nat := (nt - nIn + nOut - 1) / nOut

/-- neural_nets.py:174-179: prediction of turn `i` from the columns `[t-n_in, t)`, `t = n_in + i*n_out`. -/
def predTurn {α} (nIn nOut : Nat) (predict : List α → List α) (cols : List α) (i : Nat) : List α :=
  predict (Rd.pslice cols (i * nOut) (i * nOut + nIn))

/-- neural_nets.py:201 `coeffs[:,lb:ub] = ...`: numpy requires as many columns as the (clamped) slice
    has; one column is broadcast. -/
def assignCols {α} (buf : List α) (lb ub : Nat) (v : List α) : Option (List α) :=
  let n := min ub buf.length - lb
  match v with
  | [c] => some (buf.take lb ++ List.replicate n c ++ buf.drop (lb + n))
  | _ => if v.length = n then some (buf.take lb ++ v ++ buf.drop (lb + n)) else none

/-- neural_nets.py:198-201: loop over the turns, `i` counting up from `i0`. -/
def fillTurns {α} (nIn nOut : Nat) (pred : Nat → List α) : Nat → Nat → List α → Option (List α)
  | _, 0, buf => some buf
  | i, n + 1, buf => match assignCols buf (nOut * i + nIn) (nIn + nOut * (i + 1)) (pred i) with
    | none => none
    | some b => fillTurns nIn nOut pred (i + 1) n b

/-- neural_nets.py:151-202: `cols` are the columns of `data_in`; `predict` maps a window of `n_in` columns to the
    network output reshaped to `n_out` columns. -/
def inference {α} (zero : α) (nIn nOut : Nat) (predict : List α → List α) (cols : List α) : Except String (List α) :=
  if cols.length < nIn then .error "NameError"   -- line 163: `network` is not defined there
  else if nOut = 0 then .error "ValueError"      -- range() arg 3 must not be zero
  else
    let buf := cols.take nIn ++ (List.replicate cols.length zero).drop nIn
    match fillTurns nIn nOut (predTurn nIn nOut predict cols) 0 (turns cols.length nIn nOut) buf with
    | some b => .ok b
    | none => .error "ValueError"

/-- neural_nets.py:168-196: the two passes over complex columns: the network with the weights `real<idx>` on the
    real parts and, if the input has any imaginary part, the one with `imag<idx>` on the imaginary parts. -/
def complexPredict {β} (zero : β) (anyImag : Bool) (netRe netIm : List β → List β) (win : List (β × β)) : List (β × β) :=
  List.zip (netRe (win.map (·.1))) (if anyImag then netIm (win.map (·.2)) else List.replicate (netRe (win.map (·.1))).length zero)

/-- `np.transpose` of an array given by its `n`-entry rows (neural_nets.py:175, 201: `data_in[:,idx_x[cnt]]`, `np.transpose(coeffs_tmp[:,i,:])`);
    a row too short has no entry there. -/
def transposed {α} (n : Nat) (rows : List (List α)) : List (List α) := (List.range n).map fun (j : Nat) => rows.filterMap (·[j]?)

section Workflow
variable {K : Type} [Field K] [LinearOrder K]

/-- The emulation workflow of tests/test_emulation.py:109-121 for real data: the scaling vector of the
    training coefficients, the scaled test coefficients, inference with the trained network `net`, and the result scaled back.
    `none` as a number stands for nan; the network is any function of a window of columns.  Simplification: the zeros that
    `model_inference` allocates are always overwritten or the call fails, so they are written as zero columns. -/
def emulate (dataType normalization : String) (nIn nOut : Nat) (net : List (List (Option K)) → List (List (Option K)))
    (train test : List (List K)) : Except String (List (List (Option K))) :=
  match scalerReal dataType normalization train with
  | .error e => .error e
  | .ok vec =>
    match inference (List.replicate test.length (some 0)) nIn nOut net (transposed (test.headD []).length (scaleReal test vec)) with
    | .error e => .error e
    | .ok cols => .ok (descaleReal (transposed test.length cols) vec)

/-- The same workflow for complex data (tests/test_emulation.py:258-275): real and imaginary parts are scaled by their own factors and predicted by
    their own networks (neural_nets.py:168-196); the second network is used only if the scaled test data have an imaginary part that is not zero
    (`np.isreal`, neural_nets.py:183; nan is not zero). -/
def emulateComplex (dataType normalization : String) (nIn nOut : Nat) (netRe netIm : List (List (Option K)) → List (List (Option K)))
    (train test : List (List (K × K))) : Except String (List (List (Option K × Option K))) :=
  match scalerComplex dataType normalization train with
  | .error e => .error e
  | .ok vec =>
    let scaled := scaleComplex test vec
    let imag := scaled.any fun row => row.any fun z => z.2 != some 0
    let predict (win : List (List (Option K × Option K))) : List (List (Option K × Option K)) :=
      let a := netRe (win.map fun c => c.map Prod.fst)
      if imag then List.zipWith List.zip a (netIm (win.map fun c => c.map Prod.snd)) else a.map fun c => c.map fun x => (x, some 0)
    match inference (List.replicate test.length (some 0, some 0)) nIn nOut predict (transposed (test.headD []).length scaled) with
    | .error e => .error e
    | .ok cols => .ok (descaleComplex (transposed test.length cols) vec)

end Workflow

end Verif.Emu
