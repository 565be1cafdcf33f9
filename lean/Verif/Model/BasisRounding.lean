import Verif.Model.OrthoRounding
import Mathlib.LinearAlgebra.Matrix.ConjTranspose
import Mathlib.Data.Fin.Tuple.Basic
/-
  Floating-point arithmetic in the basis update of the streaming method (/repo/pyspod/spod/streaming.py:157-207) at one frequency, on all ranks, as a relation between the
  operands and the possible results; see Model/Rounding.lean.  An array stands for one column, with the values of all ranks.
-/
namespace Verif.Round
open Verif Verif.Par Finset
open scoped ComplexConjugate

/-- the possible values of one entry of a product of complex matrices, `Σ_j a_j b_j`: every product and every addition rounded, in any order, real and imaginary
    part each on its own -/
def FlRow (u : ℝ) {k : Nat} (a b : Fin k → ℂ) (z : ℂ) : Prop :=
  FlDot u ((List.finRange k).flatMap fun j => [((a j).re, (b j).re), (-(a j).im, (b j).im)]) z.re ∧
    FlDot u ((List.finRange k).flatMap fun j => [((a j).re, (b j).im), ((a j).im, (b j).re)]) z.im

/-- the product of a real number (of complex type, imaginary part zero) with a complex one -/
def FlScaled (u c : ℝ) (a z : ℂ) : Prop := Rounds u (c * a.re) z.re ∧ Rounds u (c * a.im) z.im

/-- columns of the basis and singular values (streaming.py:72-73) -/
structure FlBasis (k : Nat) where
  S : Fin k → ℝ
  U : Fin k → Arr ℂ

/-- what one update computes on the way -/
structure Trace (k : Nat) where
  Ux : Fin k → ℂ
  up : Arr ℂ
  abs : ℂ
  new : Arr ℂ
  K : Fin (k + 1) → Fin (k + 1) → ℂ
  Up : Fin (k + 1) → Fin (k + 1) → ℂ
  V : Matrix (Fin (k + 1)) (Fin (k + 1)) ℂ
  Sp : Fin (k + 1) → ℝ
  rot : Fin (k + 1) → Arr ℂ

/-- streaming.py:157-207: one update with `block_i = b`, new column `x`.  `sh` is the shape of a snapshot; `v` bounds the relative error of a square root and of a division of
    complex numbers; the singular value decomposition (LAPACK, trusted) leaves a residual of at most `δ` in every entry, and its
    first factor is within `δ` of a unitary matrix. -/
structure FlUpdate (u v δ : ℝ) (comms : List Comm) (ax : Nat) (sh : List Nat) (b : Nat) {k : Nat} (B : FlBasis k) (x : Arr ℂ) (t : Trace k) (B' : FlBasis k) : Prop where
  /-- streaming.py:169-170 -/
  proj : ∀ j, FlInner u comms ax (B.U j) x ⟨sh, fun _ => 1⟩ (t.Ux j)
  /-- streaming.py:173 -/
  perp : ∀ idx, InRange sh idx → ∃ s : ℂ, FlRow u (fun j => (B.U j).at' idx) t.Ux s ∧ Rounds u ((x.at' idx).re - s.re) (t.up.at' idx).re ∧
    Rounds u ((x.at' idx).im - s.im) (t.up.at' idx).im
  /-- streaming.py:176-178 -/
  norm : ∃ q : ℂ, FlInner u comms ax t.up t.up ⟨sh, fun _ => 1⟩ q ∧ ‖t.abs ^ 2 - q‖ ≤ v * ‖q‖
  /-- streaming.py:181; a division by zero gives `nan` (C184) -/
  unit : t.abs ≠ 0 ∧ ∀ idx, InRange sh idx → ‖t.new.at' idx - t.up.at' idx / t.abs‖ ≤ v * ‖t.up.at' idx / t.abs‖
  /-- streaming.py:185-191 -/
  kMat : ∃ q c r, Rounds u (((b : ℝ) + 1) / ((b : ℝ) + 2) ^ 2) q ∧ Rounds u (Real.sqrt q) c ∧ Rounds u (Real.sqrt ((b : ℝ) + 2)) r ∧
    (∀ i j : Fin k, ∃ p, Rounds u (r * if i = j then B.S j else 0) p ∧ FlScaled u c (p : ℂ) (t.K i.castSucc j.castSucc)) ∧
    (∀ i : Fin k, FlScaled u c (t.Ux i) (t.K i.castSucc (Fin.last k))) ∧ (∀ j : Fin k, FlScaled u c 0 (t.K (Fin.last k) j.castSucc)) ∧
    FlScaled u c t.abs (t.K (Fin.last k) (Fin.last k))
  /-- streaming.py:194 -/
  svd : t.V.conjTranspose * t.V = 1 ∧ (∃ W : Matrix (Fin (k + 1)) (Fin (k + 1)) ℂ, W.conjTranspose * W = 1 ∧ ∀ i j, ‖t.Up i j - W i j‖ ≤ δ) ∧
    (∀ i l, ‖t.K i l - ∑ j, t.Up i j * t.Sp j * conj (t.V l j)‖ ≤ δ) ∧ (∀ j, 0 ≤ t.Sp j) ∧ Antitone t.Sp
  /-- streaming.py:201-202 -/
  rot : ∀ j idx, InRange sh idx → FlRow u (Fin.snoc (fun l => (B.U l).at' idx) (t.new.at' idx) : Fin (k + 1) → ℂ) (fun l => t.Up l j) ((t.rot j).at' idx)
  /-- streaming.py:206-207 -/
  keep : ∀ j : Fin k, B'.U j = t.rot j.castSucc ∧ B'.S j = t.Sp j.castSucc
  shapes : t.up.shape = sh ∧ ∀ j, (t.rot j).shape = sh

/-- streaming.py:72-73, 96-212: `M` updates from the zero basis, the first with `block_i = 1` -/
def FlBasisRun (u v δ : ℝ) (comms : List Comm) (ax : Nat) (sh : List Nat) {k : Nat} (x : Nat → Arr ℂ) (M : Nat) (B : Nat → FlBasis k) (t : Nat → Trace k) : Prop :=
  B 0 = ⟨fun _ => 0, fun _ => ⟨sh, fun _ => 0⟩⟩ ∧ ∀ m < M, FlUpdate u v δ comms ax sh (m + 1) (B m) (x m) (t m) (B (m + 1))

end Verif.Round
