import Verif.Model.Errors
import Verif.Model.Rounding
/-
  Floating-point arithmetic in `compute_l_errors` (/repo/pyspod/utils/errors.py:6-30), as relations between the fields and the possible results; see Model/Rounding.lean.
  For real fields of one shape, the list of values in C order; a field of no values and a reference with zeros (nan) are in Model/Errors.lean.
-/
namespace Verif.Round
open Verif

/-- errors.py:18-19: the possible values of `np.abs(data - data_ref).flatten('C')` (taking the absolute value is exact) -/
def FlAbsErr (u : ℝ) (d r es : List ℝ) : Prop := List.Forall₂ (fun p e => ∃ x, Rounds u (p.1 - p.2) x ∧ e = |x|) (d.zip r) es

/-- errors.py:20: the possible values of `ef / data_ref.flatten('C')` -/
def FlRelErr (u : ℝ) (es r qs : List ℝ) : Prop := List.Forall₂ (fun p q => Rounds u (p.1 / p.2) q) (es.zip r) qs

/-- `np.linalg.norm(v, 1) / n`: the sum of the absolute values in any order, divided -/
def FlNorm1 (u : ℝ) (n : Nat) (v : List ℝ) (z : ℝ) : Prop := ∃ s, FlSum u (v.map fun x => |x|) s ∧ Rounds u (s / n) z

/-- `np.linalg.norm(v) / n`: the root of `dot(v, v)`, divided -/
def FlNorm2 (u : ℝ) (n : Nat) (v : List ℝ) (z : ℝ) : Prop := ∃ s q, FlDot u (v.zip v) s ∧ Rounds u (Real.sqrt s) q ∧ Rounds u (q / n) z

/-- errors.py:17-30: the possible results of `compute_l_errors(data, data_ref, norm_type)` (`np.amax` is exact) -/
def FlErr (u : ℝ) (d r : List ℝ) (normType : String) (z : ℝ) : Prop :=
  ∃ es qs, FlAbsErr u d r es ∧ FlRelErr u es r qs ∧
    if normType = "l1" then FlNorm1 u d.length es z
    else if normType = "l2" then FlNorm2 u d.length es z
    else if normType = "linf" then Err.amax es = some z
    else if normType = "l1_rel" then FlNorm1 u d.length qs z
    else if normType = "l2_rel" then FlNorm2 u d.length qs z
    else if normType = "linf_rel" then Err.amax qs = some z
    else False

/-- errors.py:47-54: the possible values of one pass of the loop for time `i`: the differences to the time before over `dt`, their difference, its sum over the points in any order,
    the square (of the sum) and the product with `dt`; in the first pass the differences are the exact number 0 -/
def FlH1Term (u : ℝ) (d r : List (List ℝ)) (dt : ℝ) (n i : Nat) (z : ℝ) : Prop :=
  if i = 0 then z = 0
  else ∃ (a a' b b' e : Nat → ℝ) (s q : ℝ), (∀ k < n, Rounds u ((d.getD i []).getD k 0 - (d.getD (i - 1) []).getD k 0) (a k) ∧ Rounds u (a k / dt) (a' k) ∧
      Rounds u ((r.getD i []).getD k 0 - (r.getD (i - 1) []).getD k 0) (b k) ∧ Rounds u (b k / dt) (b' k) ∧ Rounds u (a' k - b' k) (e k)) ∧
    FlSum u ((List.range n).map e) s ∧ Rounds u (s * s) q ∧ Rounds u (dt * q) z

/-- errors.py:33-58: the possible results of `compute_h_errors(data, data_ref, dt, 'h1')` for snapshots of `n` values: the terms are added one after the other (here: in any order)
    and the root is taken -/
def FlH1 (u : ℝ) (d r : List (List ℝ)) (dt : ℝ) (n : Nat) (z : ℝ) : Prop :=
  ∃ (t : Nat → ℝ) (s : ℝ), (∀ i < d.length, FlH1Term u d r dt n i (t i)) ∧ FlSum u ((List.range d.length).map t) s ∧ Rounds u (Real.sqrt s) z

end Verif.Round
