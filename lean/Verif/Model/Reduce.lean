import Verif.Model.Parallel
import Mathlib.Algebra.BigOperators.Group.Finset.Basic
import Mathlib.Algebra.Field.Basic
import Mathlib.Algebra.Star.Basic
/-
  Model of the reductions over ranks: `pvar` (parallel.py:27-46), `apply_normalization`
  (weights.py:100-144), and the Gram matrices (spod/standard.py:197-202, pod/standard.py:50-51).
-/
namespace Verif.Par
open Verif

/-! ### Floating-point values with NaN -/

/-- A float: an exact number, or `none` for NaN (rounding and infinities are not modelled). -/
abbrev FV (K : Type) := Option K

/-- lifted binary operation: NaN is absorbing -/
def fv2 {K} (f : K → K → K) : FV K → FV K → FV K
  | some a, some b => some (f a b)
  | _, _ => none

/-- division; `x/0` is not a finite number -/
def fvDiv {K} [Field K] [DecidableEq K] : FV K → FV K → FV K
  | some a, some b => if b = 0 then none else some (a / b)
  | _, _ => none

/-- `np.sum` of a list of floats -/
def fvSum {K} [AddCommMonoid K] (l : List (FV K)) : FV K := l.foldr (fv2 (· + ·)) (some 0)

/-- local triple `(n, m, v)` computed by one rank, parallel.py:31-35 -/
def localStat {K} [Field K] [DecidableEq K] (data : List (FV K)) : Nat × FV K × FV K :=
  let n := data.length
  let m := fvDiv (fvSum data) (some (n : K))
  let d := data.map fun x => fv2 (· - ·) x m
  let d := d.map fun x => fv2 (· * ·) x x
  let v := fvDiv (fvSum d) (some (n : K))
  (n, m, v)

/-- parallel.py:37-43 `op_stat` -/
def opStat {K} [Field K] [DecidableEq K] (a b : Nat × FV K × FV K) : Nat × FV K × FV K :=
  let (na, ma, va) := a
  let (nb, mb, vb) := b
  let n := na + nb
  let add := fv2 (K := K) (· + ·)
  let mul := fv2 (K := K) (· * ·)
  let sub := fv2 (K := K) (· - ·)
  let fna : FV K := some (na : K)
  let fnb : FV K := some (nb : K)
  let fn : FV K := some (n : K)
  let m := fvDiv (add (mul fna ma) (mul fnb mb)) fn
  let sq := mul (sub ma mb) (sub ma mb)
  let v := fvDiv (add (add (mul fna va) (mul fnb vb)) (fvDiv (mul (mul fna fnb) sq) fn)) fn
  (n, m, v)

/-- Reduction tree used by `comm.allreduce(·, op=op_stat)`: the leaves are ranks (with the data they
    hold), the shape is chosen by the MPI implementation. -/
inductive RTree (D : Type) where
  | rank (d : D)
  | node (l r : RTree D)

/-- the ranks' data, left to right -/
def RTree.leaves {D} : RTree D → List D
  | .rank d => [d]
  | .node l r => l.leaves ++ r.leaves

/-- parallel.py:27-46 `pvar` (result triple `(n, m, v)` before reordering in the return). -/
def pvar {K} [Field K] [DecidableEq K] : RTree (List (FV K)) → Nat × FV K × FV K
  | .rank d => localStat d
  | .node l r => opStat (pvar l) (pvar r)

/-- `np.nanvar(data[...,i])` (weights.py:138): population variance of the non-NaN entries. -/
def nanvar {K} [Field K] [DecidableEq K] (data : List (FV K)) : FV K :=
  (localStat (data.filter Option.isSome)).2.2

/-- weights.py:123-125 (parallel): new weight of a point whose variable has data `tree` over the ranks. -/
def normWeightPar {K} [Field K] [DecidableEq K] (w : K) (tree : RTree (List (FV K))) : FV K :=
  fvDiv (some w) (pvar tree).2.2

/-- weights.py:137-139 (serial): new weight when the same variable's data are on one process. -/
def normWeightSer {K} [Field K] [DecidableEq K] (w : K) (data : List (FV K)) : FV K :=
  fvDiv (some w) (nanvar data)

/-! ### Gram matrices -/

open Finset in
/-- Sum over all indices of a shape. -/
def idxSum {M} [AddCommMonoid M] : List Nat → (List Nat → M) → M
  | [], f => f []
  | n :: ns, f => ∑ i ∈ Finset.range n, idxSum ns fun is => f (i :: is)

open Finset in
/-- spod/standard.py:199 entry `(i,j)` of `Q.conj().T @ (Q * weights) / n_blocks` on one rank, `Q` being
    the local Fourier block `i` flattened in C order; `w` the local weights flattened likewise.
    (`np.squeeze` is the identity when the rank holds at least two values, see `gramShape`.) -/
def localGram {K} [Field K] [Star K] (Q : Nat → Arr K) (w : Arr K) (nBlocks : K) (i j : Nat) : K :=
  (∑ k ∈ range (size w.shape),
    star ((Q i).at' (unravel w.shape k)) * ((Q j).at' (unravel w.shape k) * w.at' (unravel w.shape k)))
  / nBlocks

/-- spod/standard.py:197-202: every rank's local matrix is summed with `allreduce`. -/
def gram {K} [Field K] [Star K] (size : Nat) (ax : Nat) (Q : Nat → Arr K) (w : Arr K) (nBlocks : K)
    (i j : Nat) : K :=
  allreduce ((List.range size).map fun r =>
    localGram (fun b => distributeDimension (Q b) ax (some (size, r)))
      (distributeDimension w ax (some (size, r))) nBlocks i j)

end Verif.Par
