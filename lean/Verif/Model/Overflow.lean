import Verif.Model.FitRounding
/-
  The values that occur in the floating-point operations of a fit: every intermediate result of the relations of Model/Rounding.lean and Model/FitRounding.lean, in every evaluation that
  is possible up to there (/repo/pyspod/spod/base.py:504, 574-617, /repo/pyspod/spod/standard.py:157-202).  A fit does not overflow when all of them are below the largest number.
  The numbers inside the Fourier transform are not modelled.
-/
namespace Verif.Round
open Verif Verif.Par Verif.Spod

/-- `s` is a part of the additions `t` (`np.sum`, `np.mean`, `@`, `allreduce`: spod/base.py:601-612, spod/standard.py:171, 199-202) -/
inductive Part : RTree ℝ → RTree ℝ → Prop
  | refl (t : RTree ℝ) : Part t t
  | left {s l r : RTree ℝ} : Part s l → Part s (.node l r)
  | right {s l r : RTree ℝ} : Part s r → Part s (.node l r)

/-- spod/base.py:601-612, spod/standard.py:171, 199-202: values that occur when the numbers of `l` are added in any order: the results of the partial sums -/
def SumValue (u : ℝ) (l : List ℝ) (v : ℝ) : Prop := ∃ t s : RTree ℝ, t.leaves.Perm l ∧ Part s t ∧ FlTree u s v

/-- spod/base.py:589-617 (`long_t_mean`), spod/standard.py:171 (`np.mean`), see `FlMean`: values that occur in a mean -/
def MeanValue (u : ℝ) (l : List ℝ) (v : ℝ) : Prop := SumValue u l v ∨ FlMean u l v

/-- standard.py:199: values that occur in a sum of products: the products and the partial sums -/
def DotValue (u : ℝ) (ps : List (ℝ × ℝ)) (v : ℝ) : Prop :=
  (∃ p ∈ ps, Rounds u (p.1 * p.2) v) ∨ ∃ ys, List.Forall₂ (fun p y => Rounds u (p.1 * p.2) y) ps ys ∧ SumValue u ys v

/-- base.py:576-579, 589-617, standard.py:160-171 (see `FlBlock`): of the long-time mean, which `select_mean` computes for every mean type, of the block mean for
    `mean_type='blockwise'`, and the fluctuations -/
def BlockValue (u : ℝ) (m : MeanType) (vals : List ℝ) (s n : Nat) (v : ℝ) : Prop :=
  MeanValue u vals v ∨ (∃ m0, FlMean u vals m0 ∧ Rounds u m0 v) ∨
  (m = .blockwise ∧ ((∃ t < n, Rounds u (vals.getD (s + t) 0 - 0) v) ∨
    ∃ x : Nat → ℝ, (∀ t < n, Rounds u (vals.getD (s + t) 0 - 0) (x t)) ∧ MeanValue u ((List.range n).map x) v)) ∨
  ∃ y, FlBlock u m vals s n y ∧ ∃ t < n, v = y t

/-- base.py:504, standard.py:157-188: values that occur in the computation of a Fourier coefficient (see `FlHat`): of the block, the product with the window and its conversion, the
    result of the transform, the scaling factor, the result -/
def HatValue (u γ : ℝ) (c : Fit.Cfg) (m : MeanType) (ω : ℂ) (vals : List ℝ) (f b : Nat) (v : ℝ) : Prop :=
  let st := (Fit.offsets c vals.length).getD b 0
  BlockValue u m vals st c.nDft v ∨
  (∃ y, FlBlock u m vals st c.nDft y ∧ ((∃ t < c.nDft, ∃ p, Rounds u (y t * c.win.getD t 0) p ∧ (v = p ∨ Rounds u p v)) ∨
    ∃ z h, FlWindowed u c.win c.nDft y z ∧ FlDft γ ω c.nDft f z h ∧ (v = h.re ∨ v = h.im))) ∨
  MeanValue u c.win v ∨ (∃ mn, FlMean u c.win mn ∧ Rounds u (1 / mn) v) ∨ FlScale u c.win c.nDft v ∨
  ∃ q, FlHat u γ c m ω vals f b q ∧ (v = q.re ∨ v = q.im)

/-- standard.py:199 on one rank (see `FlLocal`): the weighted block, the products, the partial sums, the quotient -/
def LocalValue (u : ℝ) (Q : Nat → Arr ℂ) (w : Arr ℝ) (nb : ℝ) (i j : Nat) (v : ℝ) : Prop :=
  (∃ k < size w.shape, Rounds u (((Q j).at' (unravel w.shape k)).re * w.at' (unravel w.shape k)) v ∨ Rounds u (((Q j).at' (unravel w.shape k)).im * w.at' (unravel w.shape k)) v) ∨
  (∃ x : Nat → ℂ, (∀ k < size w.shape, Rounds u (((Q j).at' (unravel w.shape k)).re * w.at' (unravel w.shape k)) (x k).re ∧
      Rounds u (((Q j).at' (unravel w.shape k)).im * w.at' (unravel w.shape k)) (x k).im) ∧
    (DotValue u (dotRe (fun k => (Q i).at' (unravel w.shape k)) x (size w.shape)) v ∨ DotValue u (dotIm (fun k => (Q i).at' (unravel w.shape k)) x (size w.shape)) v)) ∨
  ∃ z, FlLocal u Q w nb i j z ∧ (v = z.re ∨ v = z.im)

/-- standard.py:197-202 (see `FlGram`): values of the ranks and the partial sums of `allreduce` -/
def GramValue (u : ℝ) (comms : List Comm) (ax : Nat) (Q : Nat → Arr ℂ) (w : Arr ℝ) (nb : ℝ) (i j : Nat) (v : ℝ) : Prop :=
  (∃ comm ∈ comms, LocalValue u (fun b => distributeDimension (Q b) ax comm) (distributeDimension w ax comm) nb i j v) ∨
  ∃ ls : List ℂ, List.Forall₂ (fun comm l => FlLocal u (fun b => distributeDimension (Q b) ax comm) (distributeDimension w ax comm) nb i j l) comms ls ∧
    (SumValue u (ls.map Complex.re) v ∨ SumValue u (ls.map Complex.im) v)

end Verif.Round
