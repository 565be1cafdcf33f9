import Verif.Model.Coeffs
import Mathlib.Tactic.Ring
import Mathlib.Tactic.Linarith
import Mathlib.Tactic.NormNum
/-
  C73, C75, C76: convolution coefficients in parallel, on a frequency band, and the modes saved with them.
-/
set_option linter.unusedSectionVars false
set_option linter.unusedVariables false
namespace Verif.Props
open Verif Verif.Coef

/-! ### C73: parallel run -/

/-- Specification: the coefficient is the weighted projection over *all* grid points. -/
def convTrue {K} [Field K] [Star K] {X} (corr : K) (phi w q : X → K) (grid : List X) : K :=
  corr * (grid.map fun x => q x * w x * star (phi x)).sum

/-- **C73 (partial).**  On one rank (or without a communicator) the saved coefficient is the projection. -/
theorem conv_serial_partial {K} [Field K] [LinearOrder K] [Star K] {X} (corr : K) (phi w q : X → K) (grid : List X) :
    convSaved corr phi w q [grid] = convTrue corr phi w q grid := rfl

/-- **C73 (exactly when).**  On any number of ranks the saved coefficient is the projection exactly when the
    contributions of the ranks other than rank 0 cancel. -/
theorem conv_parallel_exact {K} [Field K] [LinearOrder K] [Star K] {X} (corr : K) (phi w q : X → K)
    (first : List X) (others : List (List X)) :
    convSaved corr phi w q (first :: others) = convTrue corr phi w q (first :: others).flatten ↔
      convTrue corr phi w q others.flatten = 0 := by
  have e : convTrue corr phi w q (first :: others).flatten =
      convSaved corr phi w q (first :: others) + convTrue corr phi w q others.flatten := by
    simp only [convTrue, convSaved, convLocal, List.flatten_cons, List.map_append, List.sum_append, List.headD_cons]
    ring
  rw [e]
  constructor
  · intro h
    have := congrArg (fun z => z - convSaved corr phi w q (first :: others)) h
    simpa using this.symm
  · intro h; rw [h, add_zero]

/-- **C73 fails**: the same data on one and on two ranks give different saved coefficients (two points, weight
    one, constant mode and data: 2 on one rank, 1 on two ranks). -/
theorem conv_parallel_fails :
    ∃ (phi w q : Nat → Int), ∃ serial two : Rat,
      serial = convSaved (K := Rat) (1 : Rat) (fun x => phi x) (fun x => w x) (fun x => q x) [[0, 1]] ∧
      two = convSaved (K := Rat) (1 : Rat) (fun x => phi x) (fun x => w x) (fun x => q x) [[0], [1]] ∧ serial ≠ two := by
  refine ⟨fun _ => 1, fun _ => 1, fun _ => 1, 2, 1, ?_, ?_, by norm_num⟩ <;>
    norm_num [convSaved, convLocal]

/-! ### C75: frequency band -/

/-- **C75 (exactly when).**  With the frequencies of the selected band (`n_sel = n_freq_r`) the computation
    succeeds exactly when the band is the whole axis and there are at least two frequencies, two grid points
    and two modes. -/
theorem conv_band_exact (nSel nFreq xsize nModes : Nat) (hs : 0 < nSel) (hf : 0 < nFreq) (hx : 0 < xsize) (hm : 0 < nModes) :
    convAssign nSel nSel nFreq xsize nModes = true ↔ nSel = nFreq ∧ 2 ≤ nFreq ∧ 2 ≤ xsize ∧ 2 ≤ nModes := by
  by_cases h1 : nFreq = 1 <;> by_cases h2 : xsize = 1 <;> by_cases h3 : nModes = 1 <;>
    simp [convAssign, h1, h2, h3, bcast, fits]
  by_cases h : nSel = nFreq
  · subst h; simp; omega
  · simp only [h, if_false, false_and, iff_false]
    by_cases h1' : nSel = 1
    · subst h1'
      simp; omega
    · simp [h1']

/-- **C75 (partial).**  The whole axis works. -/
theorem conv_full_axis_partial (nFreq xsize nModes : Nat) (hf : 2 ≤ nFreq) (hx : 2 ≤ xsize) (hm : 2 ≤ nModes) :
    convAssign nFreq nFreq nFreq xsize nModes = true :=
  (conv_band_exact nFreq nFreq xsize nModes (by omega) (by omega) (by omega) (by omega)).2 ⟨rfl, hf, hx, hm⟩

/-- **C75 fails** for every proper band, and for one saved mode. -/
theorem conv_band_fails (nSel nFreq xsize nModes : Nat) (hs : 0 < nSel) (hx : 0 < xsize) (hm : 0 < nModes)
    (h : nSel < nFreq ∨ nModes = 1 ∧ 0 < nFreq) : convAssign nSel nSel nFreq xsize nModes = false := by
  rw [← Bool.not_eq_true, conv_band_exact nSel nFreq xsize nModes hs (by omega) hx hm]
  omega

example : convAssign 5 5 5 10 3 = true := by decide
example : convAssign 2 2 5 10 3 = false := by decide

/-! ### C76: modes saved with the coefficients -/

theorem convModesFile_eq {β} (F X M : Nat) (phir : Nat → Nat → Nat → β) (x f m : Nat) (hx : x < X) (hf : f < F)
    (hm : m < M) : convModesFile F X M phir x f m = phir ((x * F + f) / X) ((x * F + f) % X) m := by
  have hX : 0 < X := by omega
  have hM : 0 < M := by omega
  have hlt : x * F + f < F * X := by
    have : (x + 1) * F ≤ X * F := Nat.mul_le_mul_right _ hx
    rw [Nat.mul_comm F X]; rw [Nat.add_mul] at this; omega
  have hq : (x * F + f) / X < F := by rw [Nat.div_lt_iff_lt_mul hX]; exact hlt
  have hpos : ravel [X, F, M] [x, f, m] = (x * F + f) * M + m := by
    simp [ravel, Verif.size]; ring
  unfold convModesFile
  rw [hpos]
  have hd : ((x * F + f) * M + m) / M = x * F + f := by
    rw [Nat.mul_comm, Nat.mul_add_div hM, Nat.div_eq_of_lt hm, Nat.add_zero]
  have hmod : ((x * F + f) * M + m) % M = m := by
    rw [Nat.mul_comm, Nat.mul_add_mod, Nat.mod_eq_of_lt hm]
  have h3 : unravel [F, X, M] ((x * F + f) * M + m) = [(x * F + f) / X, (x * F + f) % X, m] := by
    simp only [unravel, Verif.size, Nat.mul_one, Nat.div_one]
    rw [Nat.mul_comm X M, ← Nat.div_div_eq_div_mul, hd, Nat.mul_comm M X, Nat.mod_mul_left_div_self, hd,
      Nat.mod_mul_left_mod, hmod]
  rw [h3]

/-- **C76 (partial).**  With one frequency, or one grid point, the saved modes are the modes. -/
theorem conv_modes_file_partial {β} (F X M : Nat) (phir : Nat → Nat → Nat → β) (h : F = 1 ∨ X = 1) (x f m : Nat)
    (hx : x < X) (hf : f < F) (hm : m < M) : convModesFile F X M phir x f m = phir f x m := by
  rw [convModesFile_eq F X M phir x f m hx hf hm]
  rcases h with rfl | rfl
  · have : f = 0 := by omega
    subst this
    rw [Nat.mul_one, Nat.add_zero, Nat.div_eq_of_lt hx, Nat.mod_eq_of_lt hx]
  · have : x = 0 := by omega
    subst this
    simp [Nat.mod_one]

/-- **C76 fails** as soon as there are two frequencies and two grid points: the entry reported for grid point
    0, frequency 1 is the value of frequency 0 at grid point 1. -/
theorem conv_modes_file_fails {β} (F X M : Nat) (hF : 2 ≤ F) (hX : 2 ≤ X) (phir : Nat → Nat → Nat → β) (m : Nat) (hm : m < M) :
    convModesFile F X M phir 0 1 m = phir 0 1 m := by
  rw [convModesFile_eq F X M phir 0 1 m (by omega) (by omega) hm, Nat.zero_mul, Nat.zero_add,
    Nat.div_eq_of_lt (by omega), Nat.mod_eq_of_lt (by omega)]

/-- ... which differs from the value of frequency 1 at grid point 0 for suitable modes, so the reconstruction
    cannot use that file. -/
theorem conv_modes_file_wrong : ∃ phir : Nat → Nat → Nat → Nat, convModesFile 2 2 1 phir 0 1 0 ≠ phir 1 0 0 :=
  ⟨fun f x _ => 10 * f + x, by decide⟩

end Verif.Props
