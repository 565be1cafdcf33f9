import Verif.Model.StreamFit
import Verif.Model.FitRounding
/-
  Floating-point arithmetic in the sliding blocks of the streaming method (/repo/pyspod/spod/streaming.py:41, 76-141, 160), at one grid point and one frequency, as relations
  between the data and the possible results; see Model/Rounding.lean.  The time indices of the slots are integers and exact.
  The data are real, so that the imaginary part of the running mean is exactly zero.
-/
namespace Verif.Round
open Verif Verif.Stream

/-- a loop whose body has several possible results -/
inductive Loop {σ α : Type} (R : σ → α → σ → Prop) : σ → List α → σ → Prop
  | nil (s : σ) : Loop R s [] s
  | cons {s s' s'' : σ} {a : α} {l : List α} : R s a s' → Loop R s' l s'' → Loop R s (a :: l) s''

/-- streaming.py:109-110: the possible values of `(ti * mu_old + x_new) / (ti + 1)`.  numpy divides complex numbers by multiplying with the rounded reciprocal. -/
def FlMeanStep (u : ℝ) (ti : Nat) (mu x mu' : ℝ) : Prop :=
  ∃ p s r, Rounds u (ti * mu) p ∧ Rounds u (p + x) s ∧ Rounds u (1 / ((ti : ℝ) + 1)) r ∧ Rounds u (s * r) mu'

/-- streaming.py:117-119: one component of `x_sum + window[t] * dft[t,:] * x_new`, stored in `x_sum` (a conversion if the working precision is single) -/
def FlAddTerm (u w d x a v : ℝ) : Prop := ∃ g p q, Rounds u (w * d) g ∧ Rounds u (g * x) p ∧ Rounds u (a + p) q ∧ Rounds u q v

/-- streaming.py:137: one component of `x_hat - (window[row_idx] * dft[row_idx,:]) * mu` -/
def FlSubTerm (u w d mu a v : ℝ) : Prop := ∃ g p, Rounds u (w * d) g ∧ Rounds u (g * mu) p ∧ Rounds u (a - p) v

/-- streaming.py:115-128, see `Stream.slotStep` -/
def FlSlotStep (u : ℝ) (P n dn : Nat) (w : Nat → ℝ) (dft : Nat → ℂ) (x : ℝ) (st : Slots ℂ × List (Nat × ℂ)) (j : Nat) (st' : Slots ℂ × List (Nat × ℂ)) : Prop :=
  let s := st.1
  let tj := s.t j
  ∃ sum1 : Nat → ℂ,
    (if tj > -1 then ∃ v : ℂ, FlAddTerm u (w tj.toNat) (dft tj.toNat).re x (s.sum j).re v.re ∧ FlAddTerm u (w tj.toNat) (dft tj.toNat).im x (s.sum j).im v.im ∧
        sum1 = Function.update s.sum j v
      else sum1 = s.sum) ∧
    st' = if tj = (n : Int) - 1 then
        (⟨Function.update s.t j (minT P s.t - dn), Function.update sum1 j 0⟩, st.2 ++ [(j, sum1 j)])
      else (⟨Function.update s.t j (tj + 1), sum1⟩, st.2)

/-- streaming.py:97-141, see `Stream.step`: one snapshot; `sc` is the computed `win_weight / n_dft` -/
def FlStep (u : ℝ) (P n dn : Nat) (w : Nat → ℝ) (dft : Nat → ℂ) (sc : ℝ) (s : St ℂ) (x : ℝ) (s' : St ℂ) : Prop :=
  s'.count = s.count + 1 ∧ FlMeanStep u s.count s.mu.re x s'.mu.re ∧ s'.mu.im = 0 ∧
    ∃ o, Loop (FlSlotStep u P n dn w dft x) (s.slots, []) (List.range P) (s'.slots, o) ∧
      match o.getLast? with
      | none => s'.out = s.out
      | some (_, xhat) => ∃ y z : ℂ,
          Loop (fun a row a' => FlSubTerm u (w row) (dft row).re s'.mu.re a.re a'.re ∧ FlSubTerm u (w row) (dft row).im s'.mu.re a.im a'.im) xhat (List.range n) y ∧
          Rounds u (sc * y.re) z.re ∧ Rounds u (sc * y.im) z.im ∧ s'.out = s.out ++ [(s.count, o.map (·.1), z)]

/-- streaming.py:76-141, see `SFit.blocksAt`: the possible states after the stream `vals`.  `dft` is the computed Fourier row (`np.fft.fft` of the identity, doubled for the
    interior frequencies of real data): contract, every entry is within `γ` of the exact one. -/
def FlStream (u γ : ℝ) (c : Fit.Cfg) (ω : ℂ) (f : Nat) (vals : List ℝ) (s : St ℂ) : Prop :=
  ∃ (dft : Nat → ℂ) (sc : ℝ),
    (∀ t < c.nDft, ‖dft t - dftMat ω c.isreal (Spod.nFreq c.nDft c.isreal c.full) f t‖ ≤ γ) ∧ FlScale u c.win c.nDft sc ∧
    Loop (FlStep u (nPar c.nDft (SFit.sep c)) c.nDft (SFit.sep c) (fun t => c.win.getD t 0) dft sc) (initSt (SFit.sep c)) vals s

/-- streaming.py:41, 160: the possible values of `x_hat * sqrt_w` for the block `z` and the weight `wt` of the point -/
def FlColumn (u wt : ℝ) (z x : ℂ) : Prop := ∃ r, Rounds u (Real.sqrt wt) r ∧ Rounds u (z.re * r) x.re ∧ Rounds u (z.im * r) x.im

end Verif.Round
