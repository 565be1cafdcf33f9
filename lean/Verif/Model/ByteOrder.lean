import Verif.Model.Fit
/-
  Data types and byte order of the weights a user passes, down to the bytes of `weights.npy`
  (/repo/pyspod/spod/base.py:89-94, 454-455, 489-497, 671-684, 712-716; /repo/pyspod/utils/parallel.py:186-250).
  Simplifications: no normalisation of the weights; the reshape to a column and back (base.py:489, 681) is left out, it moves no
  element (C83); an element is the list of its bytes.
-/
namespace Verif.Bytes
open Verif Verif.Par Verif.Fit

/-- kinds of numpy data types told apart by `_set_dtype` (spod/base.py:712-716) -/
inductive Kind | float | complex | other
  deriving DecidableEq, Repr

/-- a numpy data type: kind, number of bytes, and whether the bytes are in the order that is not the machine's (spod/base.py:714-715
    compares these) -/
structure DType where
  kind : Kind
  bytes : Nat
  swapped : Bool
  deriving DecidableEq, Repr

/-- `self._float` for `dtype: double` or another value (spod/base.py:89-94) -/
def floatOf (double : Bool) : DType := ⟨.float, if double then 8 else 4, false⟩

/-- `self._complex` (spod/base.py:89-94) -/
def complexOf (double : Bool) : DType := ⟨.complex, if double then 16 else 8, false⟩

/-- `_set_dtype` (spod/base.py:712-716): the data type of the result.  `d.dtype == float` holds for native double precision only. -/
def setDtype (double : Bool) (d : DType) : DType :=
  if d = ⟨.float, 8, false⟩ then floatOf double
  else if d = ⟨.complex, 16, false⟩ then complexOf double
  else d

/-- an array with its data type; `words` are the bytes of the elements in memory (numpy arrays: spod/base.py:558) -/
structure Buffer where
  dt : DType
  words : Arr (List UInt8)

/-- the bytes of an element in the other order: the parts of a complex number one by one (numpy; contract of `newbyteorder`,
    parallel.py:190) -/
def swapBytes (k : Kind) (w : List UInt8) : List UInt8 :=
  match k with
  | .complex => (w.take (w.length / 2)).reverse ++ (w.drop (w.length / 2)).reverse
  | _ => w.reverse

/-- the native bytes of an element with the given data type (numpy; parallel.py:190) -/
def native (dt : DType) (w : List UInt8) : List UInt8 := if dt.swapped then swapBytes dt.kind w else w

/-- `_set_dtype` (spod/base.py:712-716) on an array; `cast` converts the bytes of an element between two data types. -/
def castBuffer (cast : DType → DType → List UInt8 → List UInt8) (double : Bool) (b : Buffer) : Buffer :=
  ⟨setDtype double b.dt, ⟨b.words.shape, fun idx => cast b.dt (setDtype double b.dt) (b.words.at' idx)⟩⟩

/-- `array.view(array.dtype.newbyteorder('='))` (parallel.py:190): the same bytes under the native data type; `array` is as given on one
    process (parallel.py:250) -/
def viewNative (comm : Comm) (dt : DType) : DType :=
  match comm with
  | some _ => { dt with swapped := false }
  | none => dt

/-- an `.npy` file: the data type of its header and its elements (parallel.py:214-222, 246) -/
structure WFile where
  dt : DType
  file : NpyFile (List UInt8)

/-- `weights.npy` after a fit (spod/base.py:454-455, 497, 684): distribution, `_set_dtype`, `npy_save`.  The header is written by the first
    rank (parallel.py:214-224). -/
def weightsFile (cast : DType → DType → List UInt8 → List UInt8) (double : Bool) (b : Buffer) (ax : Nat) (comms : List Comm)
    (sched : Sched) : WFile :=
  let locals := comms.map fun c => castBuffer cast double ⟨b.dt, distributeDimension b.words ax c⟩
  ⟨viewNative (comms.headD none) (setDtype double b.dt), saveAll sched ax (locals.map Buffer.words)⟩

/-- what `np.load` gives for element `k`: its native bytes (the inverse of np.save; e.g. spod/utils.py:684-700) -/
def WFile.read (f : WFile) (k : Nat) : List UInt8 := native f.dt ((f.file.data k).getD [])

end Verif.Bytes
