import Verif.Model.Emulation
import Mathlib.Data.Real.Basic

/-!
# Training and use of the networks of the emulation (emulation/neural_nets.py)

Keras is a contract: the state of a compiled model is its weights and the state of its optimiser; an epoch is any function of that state and the
training pairs; the checkpoint callback is modelled as documented (`save_best_only`, `monitor='loss'`, `mode='min'`).
-/
namespace Verif.Train
open Verif.Emu

/-- contract of `ModelCheckpoint` (neural_nets.py:212-218): the loss of an epoch is an improvement if it is less than the best so far (initially
    infinite).  `none` = a loss that is not finite: no comparison with it holds. -/
noncomputable def improves (loss best : Option ℝ) : Bool :=
  open Classical in
  match loss, best with
  | none, _ => false
  | some _, none => true
  | some x, some b => decide (x < b)

section
variable {W O : Type}

/-- `model.fit(epochs=n, callbacks=[ModelCheckpoint])` (neural_nets.py:230-237) from weights and optimiser `s`: state afterwards and the file of the
    checkpoint, `file` its content before; `best` = least loss so far in this call -/
noncomputable def fitEpochs (epoch : W × O → (W × O) × Option ℝ) : Nat → W × O → Option ℝ → Option W → (W × O) × Option W
  | 0, s, _, file => (s, file)
  | n + 1, s, best, file =>
    let r := epoch s
    if improves r.2 best then fitEpochs epoch n r.1 r.2 (some r.1.1) else fitEpochs epoch n r.1 best file

/-- a network object: current weights, optimiser, and the files `*.weights.h5` in `savedir` by name (neural_nets.py:46-53, 211) -/
structure Net (W O : Type) where
  s : W × O
  files : String → Option W

/-- the parameters (neural_nets.py:48-52); `ep` = one epoch on the given pairs, `net` = `model.predict` for given weights, windows of columns -/
structure Cfg (W O : Type) where
  epochs : Nat
  nIn : Nat
  nOut : Nat
  ep : List (List (List ℝ) × List (List ℝ)) → W × O → (W × O) × Option ℝ
  net : W → List (List ℝ) → List (List ℝ)

/-- `_train` (neural_nets.py:205-237) on real columns; the validation data give no feedback to the weights but must have sequences.
    Simplification: keras refuses an empty training set. -/
noncomputable def trainPart (c : Cfg W O) (n : Net W O) (train valid : List (List ℝ)) (name : String) : Except String (Net W O) :=
  match extractSequences c.nIn c.nOut 1 train, extractSequences c.nIn c.nOut 1 valid with
  | .ok x, .ok _ =>
    if x = [] then .error "ValueError" else
    let r := fitEpochs (c.ep x) c.epochs n.s none (n.files name)
    .ok ⟨r.1, fun k => if k = name then r.2 else n.files k⟩
  | .error e, _ => .error e
  | _, .error e => .error e

/-- complex columns: `data_train.real` (by assignment to a real array, neural_nets.py:97-112) and `data_train.imag` (neural_nets.py:144) -/
def re (d : List (List (ℝ × ℝ))) : List (List ℝ) := d.map fun c => c.map Prod.fst
/-- neural_nets.py:144 -/
def im (d : List (List (ℝ × ℝ))) : List (List ℝ) := d.map fun c => c.map Prod.snd

/-- `not np.isreal(data).all()` (neural_nets.py:143, 183) -/
noncomputable def anyImag (d : List (List (ℝ × ℝ))) : Bool := open Classical in d.any fun c => c.any fun z => decide (z.2 ≠ 0)

/-- names of the weights of index `idx` (neural_nets.py:142, 144, 170, 185) -/
def realName (idx : Nat) : String := "real" ++ toString idx
/-- neural_nets.py:144, 185 -/
def imagName (idx : Nat) : String := "imag" ++ toString idx

/-- `model_train` (neural_nets.py:138-144) -/
noncomputable def modelTrain (c : Cfg W O) (n : Net W O) (idx : Nat) (train valid : List (List (ℝ × ℝ))) : Except String (Net W O) :=
  match trainPart c n (re train) (re valid) (realName idx) with
  | .error e => .error e
  | .ok n1 => if anyImag train then trainPart c n1 (im train) (im valid) (imagName idx) else .ok n1

/-- `model_inference` (neural_nets.py:147-202): the network afterwards (the loaded weights stay) and the result.  Simplification: columns
    are lists of features and the combination of the two passes is column by column. -/
noncomputable def modelInference (c : Cfg W O) (n : Net W O) (idx : Nat) (data : List (List (ℝ × ℝ))) :
    Net W O × Except String (List (List (ℝ × ℝ))) :=
  if data.length < c.nIn then (n, .error "NameError") else
  match n.files (realName idx) with
  | none => (n, .error "FileNotFoundError")
  | some wr =>
    let n1 : Net W O := { n with s := (wr, n.s.2) }
    let zipCols (a b : List (List ℝ)) : List (List (ℝ × ℝ)) := List.zipWith (fun x y => List.zip x y) a b
    if anyImag data then
      match n.files (imagName idx) with
      | none => (n1, .error "FileNotFoundError")
      | some wi =>
        ({ n with s := (wi, n.s.2) },
          inference [] c.nIn c.nOut (fun win => zipCols (c.net wr (re win)) (c.net wi (im win))) data)
    else
      (n1, inference [] c.nIn c.nOut (fun win => (c.net wr (re win)).map fun col => col.map fun x => (x, 0)) data)

/-- what a program does with the object -/
inductive Op (W O : Type) where
  /-- `model_initialize` (neural_nets.py:124-135): a new model with some initial weights and optimiser -/
  | init (s : W × O)
  | train (idx : Nat) (train valid : List (List (ℝ × ℝ)))
  | infer (idx : Nat) (data : List (List (ℝ × ℝ)))

/-- the object after an operation (neural_nets.py:124-202); a failed training leaves what it had done.  Simplification: it leaves the object as it was
    (the real and imaginary parts have the same numbers of sequences, so a failure happens before anything is trained). -/
noncomputable def opStep (c : Cfg W O) (n : Net W O) : Op W O → Net W O
  | .init s => { n with s := s }
  | .train idx t v => match modelTrain c n idx t v with | .ok n' => n' | .error _ => n
  | .infer idx d => (modelInference c n idx d).1

/-- a history of operations (neural_nets.py:124-202) -/
noncomputable def ops (c : Cfg W O) (n : Net W O) (l : List (Op W O)) : Net W O := l.foldl (opStep c) n

end

/-! ## Data files (utils/io.py) and precision (`dtype`) -/

/-- what follows the last `/` (contract of `os.path.splitext`, io.py:25) -/
def afterSlash (p : List Char) : List Char := (p.reverse.takeWhile (· ≠ '/')).reverse

/-- `os.path.splitext(p)[1]` (io.py:25): from the last dot of the last component, unless only dots precede it -/
def pyExt (p : List Char) : List Char :=
  let b := afterSlash p
  let e := (b.reverse.takeWhile (· ≠ '.')).reverse
  if '.' ∈ b ∧ (b.take (b.length - e.length - 1)).any (· ≠ '.') then '.' :: e else []

/-- what `read_data` does with a file -/
inductive ReadOut | nameError | dataset | arrays | valueError
  deriving DecidableEq, Repr

/-- `read_data` (io.py:13-40); `format` is `[]` for `None`.  `npy_load` is not imported in this module. -/
def readData (file format : List Char) : ReadOut :=
  let f := (if format = [] then pyExt file else format).map Char.toLower
  if f = ".npy".toList ∨ f = "npy".toList then .nameError
  else if f = ".nc".toList ∨ f = "nc".toList then .dataset
  else if f = ".mat".toList ∨ f = "mat".toList then .arrays
  else .valueError

/-- values of the parameter `dtype` -/
inductive DtypeArg | str (s : String) | float64 | float32
  deriving DecidableEq

/-- bytes of a real number in a fit: SPOD (spod/base.py:89-94) and POD (pod/base.py:52-57) -/
def fitBytes (d : DtypeArg) : Nat := if d = .str "double" then 8 else 4

/-- bytes in the functions of spod/utils.py (726-735); `none` = ValueError -/
def spodUtilsBytes (d : DtypeArg) : Option Nat :=
  if d = .str "double" ∨ d = .float64 then some 8 else if d = .str "single" ∨ d = .float32 then some 4 else none

/-- bytes in the functions of pod/utils.py (228-235) -/
def podUtilsBytes (d : DtypeArg) : Nat := if d = .str "double" then 8 else 4

/-! ## Choice of the network -/

/-- the networks that can be built (neural_nets.py:56-88) -/
inductive NetKind | lstm | cnn
  deriving DecidableEq, Repr

/-- `model_initialize` (neural_nets.py:124-135): which network is built; `none` = ValueError.  Simplification: lower case of ASCII letters. -/
def netKind (name : String) : Option NetKind :=
  if name.toList.map Char.toLower = "lstm".toList then some .lstm
  else if name.toList.map Char.toLower = "cnn".toList then some .cnn
  else none

/-- is `compile` called on the new model (neural_nets.py:73-74 for the LSTM, 86-88 for the CNN: "to be added")? -/
def compiled : NetKind → Bool
  | .lstm => true
  | .cnn => false

/-- `model_initialize` and `model_train` for the network `name` (neural_nets.py:124-144): contract of keras: `fit` on a model that was not
    compiled raises.  Simplification: both calls in one function. -/
noncomputable def initTrain {W O : Type} (name : String) (c : Cfg W O) (n : Net W O) (idx : Nat) (train valid : List (List (ℝ × ℝ))) :
    Except String (Net W O) :=
  match netKind name with
  | none => .error "ValueError"
  | some k => match modelTrain c n idx train valid with
    | .error e => .error e
    | .ok n' => if compiled k then .ok n' else .error "RuntimeError"

end Verif.Train
