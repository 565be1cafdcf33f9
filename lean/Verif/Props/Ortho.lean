import Verif.Model.Ortho
import Verif.Props.Coeffs
import Mathlib.Tactic.Linarith
import Mathlib.Tactic.NormNum
/-
  C63: `check_orthogonality`.
-/
set_option linter.unusedVariables false
namespace Verif.Props
open Verif Verif.Ortho Verif.Coef

/-- weighted inner product of two modes (specification): `Σ_i w_i conj(a_i) b_i` -/
noncomputable def wip (w : List ℝ) (a b : List ℂ) : ℂ :=
  ∑ i ∈ Finset.range w.length, (w.getD i 0 : ℂ) * (starRingEnd ℂ) (a.getD i 0) * b.getD i 0

theorem inner_eq_wip (w : List ℝ) (a b : List ℂ) (ha : a.length = w.length) (hb : b.length = w.length) :
    inner w a b = wip w a b := by
  unfold inner wip
  induction w generalizing a b with
  | nil =>
    cases a with
    | nil => simp
    | cons _ _ => simp at ha
  | cons u w ih =>
    cases a with
    | nil => simp at ha
    | cons x a => cases b with
      | nil => simp at hb
      | cons y b =>
        simp only [List.zipWith_cons_cons, List.sum_cons, List.length_cons]
        rw [Finset.sum_range_succ', ih a b (by simpa using ha) (by simpa using hb)]
        simp only [List.getD_cons_succ, List.getD_cons_zero]
        ring

/-- The reduction over ranks is the product over the whole columns. -/
theorem ortho_parallel (parts : List (List ℝ × List ℂ × List ℂ))
    (h : ∀ p ∈ parts, p.2.1.length = p.1.length ∧ p.2.2.length = p.1.length) :
    innerPar parts = inner (parts.flatMap (·.1)) (parts.flatMap (·.2.1)) (parts.flatMap (·.2.2)) := by
  induction parts with
  | nil => simp [innerPar, inner]
  | cons p ps ih =>
    have hp := h p (by simp)
    have := ih fun q hq => h q (by simp [hq])
    simp only [innerPar, List.map_cons, List.sum_cons, List.flatMap_cons] at this ⊢
    rw [this]
    unfold inner
    rw [List.zipWith_append (by omega), List.zipWith_append (by simp; omega), List.sum_append]

/-- columns available with one frequency: its modes, then zero columns -/
theorem one_freq_cols (z : List ℂ) (nFreq nModes : Nat) (modesAt : Nat → List (List ℂ)) (f : Nat) (hn : 0 < nFreq)
    (hm : (modesAt f).length = nModes) :
    getModesMat z nFreq nModes modesAt [f] = some (modesAt f ++ List.replicate ((nFreq - 1) * nModes) z) := by
  unfold getModesMat
  rw [if_neg (by simp)]
  rw [fillModes_spec nModes modesAt [f] 0 _ (by simpa using hm) (by
    simp
    calc nModes = 1 * nModes := by ring
      _ ≤ nFreq * nModes := Nat.mul_le_mul_right _ hn)]
  simp [Nat.sub_mul]

theorem modeCol_nat (l : List (List ℂ)) (i : Nat) : modeCol l (i : Int) = l[i]? := by simp [modeCol]

/-- The call of the tests and tutorials: one frequency, one mode each, given as lists.  The value returned is the
    weighted inner product of the two modes. -/
theorem ortho_call (w : List ℝ) (nFreq nModes : Nat) (modesAt : Nat → List (List ℂ)) (f i j : Nat) (a b : List ℂ)
    (hn : 0 < nFreq) (hm : (modesAt f).length = nModes) (hi : (modesAt f)[i]? = some a)
    (hj : (modesAt f)[j]? = some b) (ha : a.length = w.length) (hb : b.length = w.length) :
    checkOrtho w nFreq nModes modesAt [f] (.list [(i : Int)]) (.list [(j : Int)]) =
      verdict (decide (i = j)) [wip w a b] := by
  have hi' : i < (modesAt f).length := (List.getElem?_eq_some_iff.mp hi).1
  have hj' : j < (modesAt f).length := (List.getElem?_eq_some_iff.mp hj).1
  unfold checkOrtho
  rw [one_freq_cols _ _ _ _ _ hn hm]
  simp only [oEntries, List.mapM_cons, List.mapM_nil, modeCol_nat]
  rw [List.getElem?_append_left hi', List.getElem?_append_left hj', hi, hj]
  simp [inner_eq_wip w a b ha hb]

theorem tol_pos : 0 < tol := by unfold tol; norm_num

/-- Exact meaning of the check for any value `x`: its *real part* is within the tolerance of the target, or on the
    boundary with the imaginary part pointing inwards. -/
theorem verdict_exact (same : Bool) (x : ℂ) :
    ∃ c, verdict same [x] = .ok (c, x) ∧ (c = true ↔
      (|x.re - (if same then 1 else 0)| < tol ∨ (x.re - (if same then 1 else 0) = tol ∧ x.im < 0) ∨
        (x.re - (if same then 1 else 0) = -tol ∧ 0 < x.im))) := by
  classical
  refine ⟨_, rfl, ?_⟩
  rw [decide_eq_true_iff]
  have ht := tol_pos
  unfold ltC gtC
  set t : ℝ := if same then 1 else 0
  rw [abs_lt]
  constructor
  · rintro ⟨h1 | ⟨h1, h1'⟩, h2 | ⟨h2, h2'⟩⟩
    · left; constructor <;> linarith
    · right; right; exact ⟨by linarith, h2'⟩
    · right; left; exact ⟨by linarith, h1'⟩
    · exfalso; linarith
  · rintro (⟨h1, h2⟩ | ⟨h1, h2⟩ | ⟨h1, h2⟩)
    · exact ⟨Or.inl (by linarith), Or.inl (by linarith)⟩
    · exact ⟨Or.inr ⟨by linarith, h2⟩, Or.inl (by linarith)⟩
    · exact ⟨Or.inl (by linarith), Or.inr ⟨by linarith, h2⟩⟩

/-- C63 (partial): two different modes whose weighted inner product is real (in particular real modes) are
    reported orthogonal exactly if that product is smaller than `2e-6` in absolute value.  Missing: complex
    inner products (`ortho_imaginary_fails`). -/
theorem ortho_real_partial (w : List ℝ) (nFreq nModes : Nat) (modesAt : Nat → List (List ℂ)) (f i j : Nat)
    (a b : List ℂ) (hn : 0 < nFreq) (hm : (modesAt f).length = nModes) (hi : (modesAt f)[i]? = some a)
    (hj : (modesAt f)[j]? = some b) (ha : a.length = w.length) (hb : b.length = w.length) (hij : i ≠ j)
    (hre : (wip w a b).im = 0) :
    ∃ c, checkOrtho w nFreq nModes modesAt [f] (.list [(i : Int)]) (.list [(j : Int)]) = .ok (c, wip w a b) ∧
      (c = true ↔ ‖wip w a b‖ < 2 / 1000000) := by
  have htol : (2 / 1000000 : ℝ) = tol := rfl
  rw [htol]
  rw [ortho_call w nFreq nModes modesAt f i j a b hn hm hi hj ha hb]
  obtain ⟨c, h1, h2⟩ := verdict_exact (decide (i = j)) (wip w a b)
  refine ⟨c, h1, ?_⟩
  rw [h2]
  have e : wip w a b = (((wip w a b).re : ℝ) : ℂ) := Complex.ext rfl (by simpa using hre)
  have en : ‖wip w a b‖ = |(wip w a b).re| := by rw [e, Complex.norm_real, Complex.ofReal_re, Real.norm_eq_abs]
  rw [en, hre]
  simp [hij]

theorem wip_self_im (w : List ℝ) (a : List ℂ) : (wip w a a).im = 0 := by
  unfold wip
  rw [Complex.im_sum]
  apply Finset.sum_eq_zero
  intro i _
  rw [mul_assoc, Complex.im_ofReal_mul, ← Complex.normSq_eq_conj_mul_self, Complex.ofReal_im, mul_zero]

/-- C63 for one mode against itself: reported true exactly if its weighted squared norm is within the tolerance of
    one. -/
theorem ortho_same (w : List ℝ) (nFreq nModes : Nat) (modesAt : Nat → List (List ℂ)) (f i : Nat) (a : List ℂ)
    (hn : 0 < nFreq) (hm : (modesAt f).length = nModes) (hi : (modesAt f)[i]? = some a) (ha : a.length = w.length) :
    ∃ c, checkOrtho w nFreq nModes modesAt [f] (.list [(i : Int)]) (.list [(i : Int)]) = .ok (c, wip w a a) ∧
      (c = true ↔ ‖wip w a a - 1‖ < 2 / 1000000) := by
  have htol : (2 / 1000000 : ℝ) = tol := rfl
  rw [htol]
  rw [ortho_call w nFreq nModes modesAt f i i a a hn hm hi hi ha ha]
  obtain ⟨c, h1, h2⟩ := verdict_exact (decide (i = i)) (wip w a a)
  refine ⟨c, h1, ?_⟩
  rw [h2]
  have hre := wip_self_im w a
  have e : wip w a a - 1 = (((wip w a a).re - 1 : ℝ) : ℂ) := Complex.ext (by simp) (by simpa using hre)
  have en : ‖wip w a a - 1‖ = |(wip w a a).re - 1| := by rw [e, Complex.norm_real, Real.norm_eq_abs]
  rw [en, hre]
  simp

theorem wip_smul (w : List ℝ) (a : List ℂ) (c : ℂ) : wip w a (a.map fun x => c * x) = c * wip w a a := by
  unfold wip
  rw [Finset.mul_sum]
  apply Finset.sum_congr rfl
  intro i _
  have : (a.map fun x => c * x).getD i 0 = c * a.getD i 0 := by
    simp only [List.getD_eq_getElem?_getD, List.getElem?_map]
    cases a[i]? <;> simp
  rw [this]; ring

/-- C63, negation: a mode and any imaginary multiple of it are reported orthogonal, although their inner product
    is `i c` times the squared norm. -/
theorem ortho_imaginary_fails (w : List ℝ) (nFreq : Nat) (a : List ℂ) (c : ℝ) (hn : 0 < nFreq)
    (ha : a.length = w.length) :
    checkOrtho w nFreq 2 (fun _ => [a, a.map fun x => (c * Complex.I) * x]) [0] (.list [0]) (.list [1]) =
      .ok (true, c * Complex.I * wip w a a) := by
  have := ortho_call w nFreq 2 (fun _ => [a, a.map fun x => (c * Complex.I) * x]) 0 0 1 a _ hn rfl rfl rfl ha
    (by simpa using ha)
  rw [Nat.cast_zero, Nat.cast_one] at this
  rw [this, wip_smul]
  obtain ⟨v, h1, h2⟩ := verdict_exact (decide (0 = 1)) (c * Complex.I * wip w a a)
  rw [h1]
  congr 2
  rw [h2]
  left
  have : (c * Complex.I * wip w a a).re = 0 := by
    rw [mul_assoc, Complex.re_ofReal_mul, Complex.I_mul_re, wip_self_im]; simp
  rw [this]
  simp [tol_pos]

example : ∃ x : ℂ, checkOrtho [1, 1] 3 2 (fun _ => [[1, 2], [1, 2].map fun x => (7 : ℝ) * Complex.I * x]) [0]
    (.list [0]) (.list [1]) = .ok (true, x) ∧ x ≠ 0 := by
  refine ⟨_, ortho_imaginary_fails [1, 1] 3 [1, 2] 7 (by norm_num) rfl, ?_⟩
  have : wip [1, 1] [1, 2] [1, 2] = 5 := by
    have e2 : (starRingEnd ℂ) 2 = 2 := Complex.conj_ofNat 2
    simp [wip, Finset.sum_range_succ, e2]; norm_num
  rw [this]
  intro h
  have := congrArg Complex.im h
  norm_num at this

/-- C63, second negation: with the documented type (`int`) of the mode numbers the call raises whenever the modes
    have at least two points. -/
theorem ortho_int_fails (w : List ℝ) (nFreq nModes : Nat) (modesAt : Nat → List (List ℂ)) (f i j : Nat) (a b : List ℂ)
    (hn : 0 < nFreq) (hm : (modesAt f).length = nModes) (hi : (modesAt f)[i]? = some a)
    (hj : (modesAt f)[j]? = some b) (hb : b.length = w.length) (hw : 2 ≤ w.length) :
    checkOrtho w nFreq nModes modesAt [f] (.int i) (.int j) = .error "ValueError" := by
  have hi' : i < (modesAt f).length := (List.getElem?_eq_some_iff.mp hi).1
  have hj' : j < (modesAt f).length := (List.getElem?_eq_some_iff.mp hj).1
  unfold checkOrtho
  rw [one_freq_cols _ _ _ _ _ hn hm]
  simp only [oEntries, List.mapM_cons, List.mapM_nil, modeCol_nat]
  rw [List.getElem?_append_left hi', List.getElem?_append_left hj', hi, hj]
  simp only [Option.pure_def, Option.bind_eq_bind, Option.bind_some, List.flatMap_cons, List.flatMap_nil,
    List.append_nil]
  match b, hb with
  | y1 :: y2 :: t, _ => simp [verdict]
  | [], hb => simp at hb; omega
  | [_], hb => simp at hb; omega

/-- On a grid of one point the call with integers is the correct one. -/
theorem ortho_int_one_point (w : ℝ) (nFreq nModes : Nat) (modesAt : Nat → List (List ℂ)) (f i j : Nat) (a b : ℂ)
    (hn : 0 < nFreq) (hm : (modesAt f).length = nModes) (hi : (modesAt f)[i]? = some [a]) (hj : (modesAt f)[j]? = some [b]) :
    checkOrtho [w] nFreq nModes modesAt [f] (.int i) (.int j) = verdict (decide (i = j)) [wip [w] [a] [b]] := by
  have hi' : i < (modesAt f).length := (List.getElem?_eq_some_iff.mp hi).1
  have hj' : j < (modesAt f).length := (List.getElem?_eq_some_iff.mp hj).1
  unfold checkOrtho
  rw [one_freq_cols _ _ _ _ _ hn hm]
  simp only [oEntries, List.mapM_cons, List.mapM_nil, modeCol_nat]
  rw [List.getElem?_append_left hi', List.getElem?_append_left hj', hi, hj]
  simp only [Option.pure_def, Option.bind_eq_bind, Option.bind_some, List.flatMap_cons, List.flatMap_nil,
    List.append_nil, List.map_cons, List.map_nil]
  rw [inner_eq_wip [w] [a] [1] rfl rfl]
  have e : wip [w] [a] [1] * b = wip [w] [a] [b] := by simp [wip]
  have hd : decide (ModeArg.int (i : Int) = ModeArg.int (j : Int)) = decide (i = j) := by simp
  rw [e, hd]

/-- C63, third negation: the number of a mode that was not stored (but is below `n_freq * n_modes_save`) is
    reported orthogonal to every mode, with value zero. -/
theorem ortho_missing_mode_fails (w : List ℝ) (nFreq nModes : Nat) (modesAt : Nat → List (List ℂ)) (f j : Nat)
    (b : List ℂ) (hn : 2 ≤ nFreq) (hm : (modesAt f).length = nModes) (hj : (modesAt f)[j]? = some b)
    (hb : b.length = w.length) :
    checkOrtho w nFreq nModes modesAt [f] (.list [(nModes : Int)]) (.list [(j : Int)]) = .ok (true, 0) := by
  have hj' : j < (modesAt f).length := (List.getElem?_eq_some_iff.mp hj).1
  have hpos : 0 < (nFreq - 1) * nModes := Nat.mul_pos (by omega) (by omega)
  unfold checkOrtho
  rw [one_freq_cols _ _ _ _ _ (by omega) hm]
  simp only [oEntries, List.mapM_cons, List.mapM_nil, modeCol_nat]
  rw [List.getElem?_append_right (by omega), hm, Nat.sub_self, List.getElem?_replicate, if_pos hpos,
    List.getElem?_append_left hj', hj]
  simp only [Option.pure_def, Option.bind_eq_bind, Option.bind_some, List.flatMap_cons, List.flatMap_nil,
    List.append_nil, List.map_cons, List.map_nil]
  have h0 : inner w (List.replicate w.length 0) b = 0 := by
    rw [inner_eq_wip _ _ _ (by simp) hb]
    unfold wip
    apply Finset.sum_eq_zero
    intro i hi
    simp [List.getElem?_replicate]
    split <;> simp
  rw [h0]
  have hne : decide (ModeArg.list [(nModes : Int)] = ModeArg.list [(j : Int)]) = false := by
    simp; omega
  rw [hne]
  obtain ⟨v, h1, h2⟩ := verdict_exact false 0
  rw [h1]
  congr 2
  rw [h2]
  left
  simp [tol_pos]

/-- Negative mode numbers count from the end of the `n_freq * n_modes` columns, most of which are padding: the number
    `i - n_freq * n_modes` is mode `i`; compared with the same mode given as `i` it is judged as two different modes
    (target 0 instead of 1). -/
theorem ortho_negative_exact (w : List ℝ) (nFreq nModes : Nat) (modesAt : Nat → List (List ℂ)) (f i j : Nat)
    (a b : List ℂ) (hn : 0 < nFreq) (hm : (modesAt f).length = nModes) (hi : (modesAt f)[i]? = some a)
    (hj : (modesAt f)[j]? = some b) (ha : a.length = w.length) (hb : b.length = w.length) :
    checkOrtho w nFreq nModes modesAt [f] (.list [(i : Int) - ((nFreq * nModes : Nat) : Int)]) (.list [(j : Int)]) =
      verdict false [wip w a b] := by
  have hi' : i < (modesAt f).length := (List.getElem?_eq_some_iff.mp hi).1
  have hj' : j < (modesAt f).length := (List.getElem?_eq_some_iff.mp hj).1
  have hle : nModes ≤ nFreq * nModes := by
    calc nModes = 1 * nModes := by ring
      _ ≤ nFreq * nModes := Nat.mul_le_mul_right _ hn
  have hlen : (modesAt f ++ List.replicate ((nFreq - 1) * nModes) (List.replicate w.length (0 : ℂ))).length =
      nFreq * nModes := by
    rw [List.length_append, List.length_replicate, hm, Nat.sub_mul, Nat.one_mul]
    omega
  have hcol : modeCol (modesAt f ++ List.replicate ((nFreq - 1) * nModes) (List.replicate w.length (0 : ℂ)))
      ((i : Int) - ((nFreq * nModes : Nat) : Int)) = some a := by
    unfold modeCol
    rw [hlen, if_neg (by omega), if_pos (by omega)]
    have : (((nFreq * nModes : Nat) : Int) + ((i : Int) - ((nFreq * nModes : Nat) : Int))).toNat = i := by omega
    rw [this, List.getElem?_append_left hi', hi]
  unfold checkOrtho
  rw [one_freq_cols _ _ _ _ _ hn hm]
  simp only [oEntries, List.mapM_cons, List.mapM_nil, modeCol_nat, hcol]
  rw [List.getElem?_append_left hj', hj]
  have hne : decide (ModeArg.list [(i : Int) - ((nFreq * nModes : Nat) : Int)] = ModeArg.list [(j : Int)]) = false := by
    simp only [decide_eq_false_iff_not, ModeArg.list.injEq, List.cons.injEq, and_true]
    omega
  rw [hne]
  simp [inner_eq_wip w a b ha hb]

end Verif.Props
