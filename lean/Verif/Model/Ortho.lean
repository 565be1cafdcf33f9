import Verif.Model.Coeffs
/-
  Model of /repo/pyspod/spod/utils.py:21-79 `check_orthogonality`.  Exact arithmetic.
-/
namespace Verif.Ortho
open Verif

/-- how a caller may give `mode_idx1`/`mode_idx2`: the documented `int`, or a list -/
inductive ModeArg
  | int (i : Int)
  | list (l : List Int)
  deriving DecidableEq

/-- numpy index along an axis of the columns, negative indices counting from the end -/
def modeCol (phir : List (List ℂ)) (i : Int) : Option (List ℂ) :=
  if 0 ≤ i then phir[i.toNat]? else if 0 ≤ (phir.length : Int) + i then phir[((phir.length : Int) + i).toNat]? else none

/-- `phir1.conj().T @ (weights * phir2)` for two columns -/
noncomputable def inner (w : List ℝ) (a b : List ℂ) : ℂ :=
  (List.zipWith (fun x y => (starRingEnd ℂ) x * y) a (List.zipWith (fun (u : ℝ) y => (u : ℂ) * y) w b)).sum

/-- spod/utils.py:68-69, on one rank per entry of `parts` (its weights and its parts of the two columns):
    local products, then `allreduce` with SUM. -/
noncomputable def innerPar (parts : List (List ℝ × List ℂ × List ℂ)) : ℂ :=
  (parts.map fun p => inner p.1 p.2.1 p.2.2).sum

/-- spod/utils.py:60-69: the entries of `O`.  `weights` has shape `(xsize,1)`.  A column selected with a list
    has shape `(xsize,1)`, one selected with an int `(xsize,)`, in which case `weights * phir2` broadcasts to
    `(xsize,xsize)`, `(i,j) ↦ w_i * phi2_j`.  `none` = IndexError. -/
noncomputable def oEntries (w : List ℝ) (phir : List (List ℂ)) : ModeArg → ModeArg → Option (List ℂ)
  | m1, .list l2 => do
    let as ← (match m1 with | .int i => [i] | .list l1 => l1).mapM (modeCol phir)
    let bs ← l2.mapM (modeCol phir)
    return as.flatMap fun a => bs.map fun b => inner w a b
  | m1, .int j => do
    let as ← (match m1 with | .int i => [i] | .list l1 => l1).mapM (modeCol phir)
    let b ← modeCol phir j
    return as.flatMap fun a => b.map fun y => inner w a (a.map fun _ => 1) * y

/-- numpy's order on complex numbers against a real: lexicographic on (real, imaginary) -/
def ltC (o : ℂ) (t : ℝ) : Prop := o.re < t ∨ (o.re = t ∧ o.im < 0)
/-- `o > t` -/
def gtC (o : ℂ) (t : ℝ) : Prop := t < o.re ∨ (o.re = t ∧ 0 < o.im)

/-- spod/utils.py:70 -/
noncomputable def tol : ℝ := 2 / 1000000

open Classical in
/-- spod/utils.py:70-75: `((O < t+tol) and (O > t-tol))`; the truth value of an array exists only for a single
    entry (`ValueError` otherwise; an empty array is treated as an error too). -/
noncomputable def verdict (same : Bool) (o : List ℂ) : Except String (Bool × ℂ) :=
  match o with
  | [x] => let t : ℝ := if same then 1 else 0
    .ok (decide (ltC x (t + tol) ∧ gtC x (t - tol)), x)
  | _ => .error "ValueError"

/-- spod/utils.py:21-79 `check_orthogonality` (serial, or after the allreduce): `modesAt f` are the mode columns
    stored for frequency `f`; `freq_idx` is a list (an int is not iterable: TypeError, spod/utils.py:714). -/
noncomputable def checkOrtho (w : List ℝ) (nFreq nModes : Nat) (modesAt : Nat → List (List ℂ))
    (freqIdx : List Nat) (m1 m2 : ModeArg) : Except String (Bool × ℂ) :=
  match Coef.getModesMat (List.replicate w.length (0 : ℂ)) nFreq nModes modesAt freqIdx with
  | none => .error "IndexError"
  | some phir => match oEntries w phir m1 m2 with
    | none => .error "IndexError"
    | some o => verdict (decide (m1 = m2)) o

end Verif.Ortho
