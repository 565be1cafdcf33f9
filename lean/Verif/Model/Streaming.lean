import Mathlib.Algebra.Field.Basic
import Mathlib.Algebra.BigOperators.Group.Finset.Basic
import Mathlib.Logic.Function.Basic
import Mathlib.LinearAlgebra.Matrix.ConjTranspose
import Mathlib.Data.Matrix.Block
import Mathlib.Data.Matrix.ColumnRowPartitioned
import Mathlib.Analysis.Complex.Order
import Mathlib.Analysis.Real.Sqrt
import Verif.Model.SpodBase
/-
  Model of /repo/pyspod/spod/streaming.py (exact arithmetic).
-/
namespace Verif.Stream

/-! ### The sliding blocks (streaming.py:43-137), at one grid point and one frequency -/

/-- streaming.py:47 `int(np.ceil(n_dft / dn))` -/
def nPar (n dn : Nat) : Nat := (n + dn - 1) / dn

/-- The block slots: sliding time index and partial Fourier sum of each slot. -/
structure Slots (K : Type) where
  t : Nat → Int
  sum : Nat → K

/-- streaming.py:50-52 and 70: slot `j` starts at index `-j*dn`, sums are zero. -/
def initSlots {K} [Zero K] (dn : Nat) : Slots K := ⟨fun j => -((j : Int) * dn), fun _ => 0⟩

/-- `min(t_idx)` (streaming.py:126) -/
def minT (P : Nat) (t : Nat → Int) : Int := (List.range P).foldl (fun m j => min m (t j)) (t 0)

/-- streaming.py:115-128, body of the loop over the slots, for slot `j`; `w`, `dft` are the window and the
    row `dft[:, i_freq]`; `out` collects the completed sums (`x_hat` is the last of them, `update` is
    whether there is one). -/
def slotStep {K} [Field K] (P n dn : Nat) (w dft : Nat → K) (x : K)
    (st : Slots K × List (Nat × K)) (j : Nat) : Slots K × List (Nat × K) :=
  let s := st.1
  let tj := s.t j
  let sum1 := if tj > -1 then Function.update s.sum j (s.sum j + w tj.toNat * dft tj.toNat * x) else s.sum
  if tj = (n : Int) - 1 then
    (⟨Function.update s.t j (minT P s.t - dn), Function.update sum1 j 0⟩, st.2 ++ [(j, sum1 j)])
  else (⟨Function.update s.t j (tj + 1), sum1⟩, st.2)

/-- streaming.py:115: all slots, in order. -/
def slotLoop {K} [Field K] (P n dn : Nat) (w dft : Nat → K) (x : K) (s : Slots K) :
    Slots K × List (Nat × K) :=
  (List.range P).foldl (slotStep P n dn w dft x) (s, [])

/-- State of the while loop: `ti + 1`, running mean, slots, and what has been handed to the basis update so
    far (most recent last): (time of completion, completing slots of that step, corrected `x_hat`). -/
structure St (K : Type) where
  count : Nat
  mu : K
  slots : Slots K
  out : List (Nat × List Nat × K)

/-- streaming.py:68,92-95 -/
def initSt {K} [Zero K] (dn : Nat) : St K := ⟨0, 0, initSlots dn, []⟩

/-- streaming.py:97-141: one snapshot.  `winWeight` as in base.py:504. -/
def step {K} [Field K] (P n dn : Nat) (w dft : Nat → K) (winWeight : K) (s : St K) (x : K) : St K :=
  let ti := s.count
  let mu := ((ti : K) * s.mu + x) / ((ti : K) + 1)
  let r := slotLoop P n dn w dft x s.slots
  let out := match r.2.getLast? with
    | none => s.out
    | some (_, xhat) =>
      let xhat := (List.range n).foldl (fun a row => a - (w row * dft row) * mu) xhat
      s.out ++ [(ti, r.2.map (·.1), winWeight / (n : K) * xhat)]
  ⟨ti + 1, mu, r.1, out⟩

/-- streaming.py:96-141: the whole stream (the loop ends when the reader raises past the last snapshot). -/
def run {K} [Field K] (n dn : Nat) (w dft : Nat → K) (winWeight : K) (xs : List K) : St K :=
  xs.foldl (step (nPar n dn) n dn w dft winWeight) (initSt dn)

/-- streaming.py:76-85: the DFT matrix, with `ω = exp(-2πi/n)`; interior stored frequencies doubled for real
    data. -/
def dftMat {R} [CommSemiring R] (ω : R) (isreal : Bool) (nFreq k t : Nat) : R :=
  if isreal ∧ 1 ≤ k ∧ k + 1 < nFreq then 2 * ω ^ (t * k) else ω ^ (t * k)

/-! ### The basis update (streaming.py:159-207) at one frequency -/

open Matrix ComplexConjugate

variable {X : Type} [Fintype X] {k : Nat}

/-- streaming.py:169 `U.conj().T @ x` (summed over ranks) -/
def proj (U : Matrix X (Fin k) ℂ) (x : X → ℂ) : Fin k → ℂ := Uᴴ *ᵥ x

/-- streaming.py:173 -/
def uPerp (U : Matrix X (Fin k) ℂ) (x : X → ℂ) : X → ℂ := x - U *ᵥ proj U x

/-- streaming.py:176-178 -/
noncomputable def absUp (U : Matrix X (Fin k) ℂ) (x : X → ℂ) : ℝ :=
  Real.sqrt (∑ i, Complex.normSq (uPerp U x i))

/-- streaming.py:181 -/
noncomputable def uNew (U : Matrix X (Fin k) ℂ) (x : X → ℂ) : X → ℂ :=
  fun i => uPerp U x i / (absUp U x : ℂ)

/-- streaming.py:185-191, with `c = block_i`: rows/columns are the `k` old directions and the new one. -/
noncomputable def kMat (U : Matrix X (Fin k) ℂ) (S : Fin k → ℝ) (x : X → ℂ) (c : Nat) :
    Matrix (Fin k ⊕ Unit) (Fin k ⊕ Unit) ℂ :=
  ((Real.sqrt (((c : ℝ) + 1) / ((c : ℝ) + 2) ^ 2) : ℝ) : ℂ) •
    Matrix.fromBlocks ((Real.sqrt ((c : ℝ) + 2) : ℂ) • Matrix.diagonal fun j => (S j : ℂ))
      (Matrix.of fun i _ => proj U x i) 0 (Matrix.of fun _ _ => (absUp U x : ℂ))

/-- Contract of `numpy.linalg.svd` (streaming.py:194), trusted: `K = Up * diag Sp * Vpᴴ` with unitary
    factors, non-negative singular values in non-increasing order (the last index is `inr ()`). -/
structure IsSVD (K : Matrix (Fin k ⊕ Unit) (Fin k ⊕ Unit) ℂ) (Up : Matrix (Fin k ⊕ Unit) (Fin k ⊕ Unit) ℂ)
    (Sp : Fin k ⊕ Unit → ℝ) : Prop where
  left : Upᴴ * Up = 1
  factor : ∃ V : Matrix (Fin k ⊕ Unit) (Fin k ⊕ Unit) ℂ, Vᴴ * V = 1 ∧
    K = Up * Matrix.diagonal (fun j => (Sp j : ℂ)) * Vᴴ
  nonneg : ∀ j, 0 ≤ Sp j
  sorted : ∀ i j : Fin k, i ≤ j → Sp (.inl j) ≤ Sp (.inl i)
  last : ∀ i : Fin k, Sp (.inr ()) ≤ Sp (.inl i)

/-- streaming.py:201-202 -/
noncomputable def uRot (U : Matrix X (Fin k) ℂ) (x : X → ℂ) (Up : Matrix (Fin k ⊕ Unit) (Fin k ⊕ Unit) ℂ) :
    Matrix X (Fin k ⊕ Unit) ℂ :=
  (Matrix.fromCols U (Matrix.of fun i (_ : Unit) => uNew U x i)) * Up

/-- streaming.py:206-207: keep the first `n_modes_save` columns and singular values. -/
noncomputable def update (U : Matrix X (Fin k) ℂ) (x : X → ℂ) (Up : Matrix (Fin k ⊕ Unit) (Fin k ⊕ Unit) ℂ)
    (Sp : Fin k ⊕ Unit → ℝ) : Matrix X (Fin k) ℂ × (Fin k → ℝ) :=
  (Matrix.of fun i j => uRot U x Up i (.inl j), fun j => Sp (.inl j))

/-! ### Shapes (streaming.py:163,166; standard.py:198-199) -/

/-- shape of `np.squeeze` -/
def squeeze (sh : List Nat) : List Nat := sh.filter (· ≠ 1)

/-- `np.diag` of an array: 1-d to 2-d; 0-d raises ValueError (`none`). -/
def diagShape : List Nat → Option (List Nat)
  | [n] => some [n, n]
  | [n, m] => some [min n m]
  | _ => none

/-- shape of `a @ b` (1-d and 2-d operands); `none` = ValueError. -/
def matmulShape : List Nat → List Nat → Option (List Nat)
  | [a, b], [c, d] => if b = c then some [a, d] else none
  | [b], [c, d] => if b = c then some [d] else none
  | [a, b], [c] => if b = c then some [a] else none
  | [b], [c] => if b = c then some [] else none
  | _, _ => none

/-- numpy broadcasting of two shapes with at most two axes -/
def bcast2 : List Nat → List Nat → Option (List Nat)
  | [a, b], [c, d] =>
    if (a = c ∨ a = 1 ∨ c = 1) ∧ (b = d ∨ b = 1 ∨ d = 1) then
      some [if a = 1 then c else a, if b = 1 then d else b] else none
  | [b], [c, d] => if b = d ∨ b = 1 ∨ d = 1 then some [c, if b = 1 then d else b] else none
  | _, _ => none

/-- streaming.py:166 with `n_m_save` modes: `np.diag(np.squeeze(self._eigs[:,i_freq]))`. -/
def streamDiag (nModesSave : Nat) : Option (List Nat) := diagShape (squeeze [nModesSave])

/-- standard.py:198-199 on one rank holding `xv` values: shape of
    `Q.conj().T @ (Q * weights)` with `Q = np.squeeze(Q_hats[f])`. -/
def gramShape (xv nBlocks : Nat) : Option (List Nat) :=
  let q := squeeze [xv, nBlocks]
  match bcast2 q [xv, 1] with
  | none => none
  | some qw => matmulShape q.reverse qw

/-! ### The long-time mean stored by a streaming fit -/

/-- base.py:601-615 with the number of snapshots `nt` given separately from the data array: in a streaming
    fit the data array holds only the first snapshot (base.py:448-449) while `nt` is that of the stream. -/
def longTMeanNt (K) [Field K] {β} [AddCommGroup β] [Module K β] (nt nb : Nat) (data : List β) : β :=
  let q := nt / nb
  let r := nt % nb
  let tSum := (List.range nb).foldl (fun acc i => acc + (Rd.pslice data (i * q) (i * q + q)).sum) 0
  let tSum := if r > 0 then tSum + (Rd.pslice data (nt - r) nt).sum else tSum
  (nt : K)⁻¹ • tSum

/-! ### Reading the stream (streaming.py:96-107) -/

/-- streaming.py:100-107: what one call of `get_data(ti)` followed by the reshape gives; `none` = an
    exception, caught by the bare `except` and taken as the end of the stream.  One-stage reader: an error, or
    Python `None` past the end (its reshape to `(flat_dim, 1)` raises for `flat_dim ≥ 2`). -/
def fetch1 {β} (zero : β) (files : List (List β)) (t : Nat) : Option β :=
  match Rd.getData1 zero files (some t) with
  | some (some [x]) => some x
  | _ => none

/-- The snapshots consumed within `fuel` iterations of the while loop from time `t` on, and whether the loop
    was left. -/
def consume {β} (fetch : Nat → Option β) : Nat → Nat → List β × Bool
  | 0, _ => ([], false)
  | fuel + 1, t => match fetch t with
    | none => ([], true)
    | some x => let r := consume fetch fuel (t + 1); (x :: r.1, r.2)

/-- Two-stage reader: rank `rank`'s `input_data` for `get_data(t)` (reader.py:414), `none` = exception. -/
def fetch2 {β} (zero : β) (names : List String) (content : String → Rd.NcFile β) (nreaders rank t : Nat) :
    Option (List β) := Rd.inputData2 zero names content nreaders t (t + 1) rank

end Verif.Stream
