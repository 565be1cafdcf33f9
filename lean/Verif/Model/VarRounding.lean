import Verif.Model.Rounding
/-
  Floating-point arithmetic in the variance that normalizes the weights: `pvar` (/repo/pyspod/utils/parallel.py:27-46), `np.nanvar` and the division of the weights
  (/repo/pyspod/utils/weights.py:123-125, 137-139).  The exact model is in Verif/Model/Reduce.lean.  The counts `n` are Python integers, at most 2^53, and exact.
-/
namespace Verif.Round
open Verif Verif.Par

/-- parallel.py:31-35: the possible values of the mean `m` and the variance `v` of the values of one rank, every operation rounded, the sums in any order; also
    `np.nanvar` (weights.py:138) on the values that are not NaN -/
def FlLocalStat (u : ℝ) (data : List ℝ) (m v : ℝ) : Prop :=
  FlMean u data m ∧ ∃ d q s, List.Forall₂ (fun x y => Rounds u (x - m) y) data d ∧ List.Forall₂ (fun y z => Rounds u (y * y) z) d q ∧ FlSum u q s ∧
    Rounds u (s / data.length) v

/-- parallel.py:37-43 `op_stat`: the possible values of the mean `m` and the variance `v` of two sets of `na` and `nb` values; `na*nb` is a product of integers that is
    rounded when it is multiplied with a float -/
def FlOpStat (u : ℝ) (na : Nat) (ma va : ℝ) (nb : Nat) (mb vb : ℝ) (m v : ℝ) : Prop :=
  (∃ a b s, Rounds u (na * ma) a ∧ Rounds u (nb * mb) b ∧ Rounds u (a + b) s ∧ Rounds u (s / (na + nb : Nat)) m) ∧
  ∃ a b s d q p t g h, Rounds u (na * va) a ∧ Rounds u (nb * vb) b ∧ Rounds u (a + b) s ∧ Rounds u (ma - mb) d ∧ Rounds u (d * d) q ∧ Rounds u (na * nb : Nat) p ∧
    Rounds u (p * q) t ∧ Rounds u (t / (na + nb : Nat)) g ∧ Rounds u (s + g) h ∧ Rounds u (h / (na + nb : Nat)) v

/-- parallel.py:27-46 `pvar`: the possible results `(n, m, v)` for a reduction tree over the ranks -/
def FlVar (u : ℝ) : RTree (List ℝ) → Nat → ℝ → ℝ → Prop
  | .rank d, n, m, v => n = d.length ∧ FlLocalStat u d m v
  | .node l r, n, m, v => ∃ na ma va nb mb vb, FlVar u l na ma va ∧ FlVar u r nb mb vb ∧ n = na + nb ∧ FlOpStat u na ma va nb mb vb m v

/-- weights.py:125, 139: the possible values of a weight after the division by the variance -/
def FlNormWeight (u : ℝ) (w var z : ℝ) : Prop := Rounds u (w / var) z

/-- `np.sum` of fewer than eight doubles: one after the other, `fl` the rounding -/
def seqSum (fl : ℝ → ℝ) : List ℝ → ℝ
  | [] => 0
  | x :: xs => xs.foldl (fun a y => fl (a + y)) x

/-- parallel.py:31-35 on a few doubles: mean and variance with the sums one after the other -/
noncomputable def seqStat (fl : ℝ → ℝ) (data : List ℝ) : ℝ × ℝ :=
  let m := fl (seqSum fl data / data.length)
  let d := data.map fun x => fl (x - m)
  let d := d.map fun y => fl (y * y)
  (m, fl (seqSum fl d / data.length))

end Verif.Round
