import Mathlib.Data.Real.Basic
import Mathlib.Analysis.Real.Sqrt
/-
  Model of /repo/pyspod/utils/errors.py.  Exact real arithmetic; a field is the list of its values in C
  order (`flatten('C')`).  numpy's `x/0` is `nan`/`inf`, here `none`.
-/
namespace Verif.Err

/-- errors.py:18-19: `np.abs(data - data_ref).flatten('C')`; `none` = shapes that do not match
    (broadcasting of different shapes is not modelled). -/
noncomputable def absErr (d r : List ℝ) : Option (List ℝ) :=
  if d.length = r.length then some (List.zipWith (fun a b => |a - b|) d r) else none

/-- errors.py:20 `ef / data_ref.flatten('C')`; `none` = not a number (or infinite) entry. -/
noncomputable def relErr (ef r : List ℝ) : List (Option ℝ) :=
  List.zipWith (fun e b => if b = 0 then none else some (e / b)) ef r

/-- `np.linalg.norm(v, 1)` -/
noncomputable def norm1 (v : List ℝ) : ℝ := (v.map fun x => |x|).sum

/-- `np.linalg.norm(v)` -/
noncomputable def norm2 (v : List ℝ) : ℝ := Real.sqrt ((v.map fun x => x ^ 2).sum)

/-- `np.amax`; ValueError (`none`) on an empty array. -/
noncomputable def amax : List ℝ → Option ℝ
  | [] => none
  | x :: xs => some (xs.foldl max x)

/-- Results of the calls: a number, `nan`/`inf`, or an exception. -/
inductive Out
  | val (x : ℝ)
  | notFinite
  | raised (e : String)

/-- a possibly non-finite vector through a norm: one bad entry makes the norm non-finite -/
noncomputable def throughNorm (f : List ℝ → Option ℝ) (v : List (Option ℝ)) : Out :=
  match v.mapM (fun x => x) with
  | none => .notFinite
  | some l => match f l with
    | none => .raised "ValueError"
    | some x => .val x

/-- mean of a norm: `norm(v)/n`, where `n = data.size` (`0/0` for empty data is `nan`). -/
noncomputable def overN (n : Nat) (f : List ℝ → ℝ) (v : List ℝ) : Out :=
  if n = 0 then .notFinite else .val (f v / n)

/-- errors.py:6-30 `compute_l_errors`. -/
noncomputable def lErr (d r : List ℝ) (normType : String) : Out :=
  match absErr d r with
  | none => .raised "ValueError"
  | some ef =>
    let n := d.length
    let eRel := relErr ef r
    if normType = "l1" then overN n norm1 ef
    else if normType = "l2" then overN n norm2 ef
    else if normType = "linf" then
      match amax ef with
      | none => .raised "ValueError"
      | some x => .val x
    else if normType = "l1_rel" then
      match eRel.mapM (fun x => x) with
      | none => .notFinite
      | some l => overN n norm1 l
    else if normType = "l2_rel" then
      match eRel.mapM (fun x => x) with
      | none => .notFinite
      | some l => overN n norm2 l
    else if normType = "linf_rel" then throughNorm amax eRel
    else .raised "ValueError"

/-- errors.py:47-54, one pass of the loop: the term added for time `i`.
    Note the parentheses of line 54: `np.sum(uprime - utrueprime)**2`, the square of the sum. -/
noncomputable def h1Term (d r : List (List ℝ)) (dt : ℝ) (i : Nat) : ℝ :=
  if i = 0 then dt * ((0 : ℝ) - 0) ^ 2
  else
    let up := List.zipWith (fun a b => (a - b) / dt) (d.getD i []) (d.getD (i - 1) [])
    let ut := List.zipWith (fun a b => (a - b) / dt) (r.getD i []) (r.getD (i - 1) [])
    dt * ((List.zipWith (fun a b => a - b) up ut).sum) ^ 2

/-- errors.py:33-58 `compute_h_errors`: `data[i]` is the flattened snapshot at time `i`.  A reference with
    fewer snapshots is an IndexError (more are ignored); `dt = 0` divides by zero; the root of a negative
    number is `nan`.  Snapshots of different sizes (broadcasting) are not modelled. -/
noncomputable def hErr (d r : List (List ℝ)) (dt : ℝ) (normType : String) : Out :=
  if normType = "h1" then
    if 2 ≤ d.length ∧ r.length < d.length then .raised "IndexError"
    else if 2 ≤ d.length ∧ dt = 0 then .notFinite
    else
      let s := (List.range d.length).foldl (fun acc i => acc + h1Term d r dt i) 0
      if s < 0 then .notFinite else .val (Real.sqrt s)
  else .raised "ValueError"

end Verif.Err
