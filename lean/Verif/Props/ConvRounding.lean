import Verif.Model.ConvRounding
import Verif.Props.ConvFit
import Verif.Props.BasisRounding
/-
  C247: the coefficients of `compute_coeffs_conv` in floating-point arithmetic.
-/
namespace Verif.Props
open Verif Verif.Par Verif.Round Verif.Spod Verif.Fit Verif.Proj Finset

/-! ### Positive numbers up to a factor -/

/-- two positive numbers within the factor `r` of each other -/
def Ratio (r y e : ℝ) : Prop := 0 < y ∧ 0 < e ∧ e ≤ r * y ∧ y ≤ r * e

theorem Ratio.mono {r r' y e : ℝ} (h : Ratio r y e) (hr : r ≤ r') : Ratio r' y e :=
  ⟨h.1, h.2.1, h.2.2.1.trans (mul_le_mul_of_nonneg_right hr h.1.le), h.2.2.2.trans (mul_le_mul_of_nonneg_right hr h.2.1.le)⟩

theorem Ratio.trans {r r' y e x : ℝ} (h : Ratio r y e) (h' : Ratio r' e x) (hr : 0 ≤ r) (hr' : 0 ≤ r') : Ratio (r * r') y x := by
  refine ⟨h.1, h'.2.1, ?_, ?_⟩
  · calc x ≤ r' * e := h'.2.2.1
      _ ≤ r' * (r * y) := mul_le_mul_of_nonneg_left h.2.2.1 hr'
      _ = r * r' * y := by ring
  · calc y ≤ r * e := h.2.2.2
      _ ≤ r * (r' * x) := mul_le_mul_of_nonneg_left h'.2.2.2 hr
      _ = r * r' * x := by ring

theorem Ratio.add {r y e y' e' : ℝ} (h : Ratio r y e) (h' : Ratio r y' e') : Ratio r (y + y') (e + e') :=
  ⟨add_pos h.1 h'.1, add_pos h.2.1 h'.2.1, by linarith [h.2.2.1, h'.2.2.1], by linarith [h.2.2.2, h'.2.2.2]⟩

theorem Ratio.div {r r' y e y' e' : ℝ} (h : Ratio r y e) (h' : Ratio r' y' e') (hr : 0 ≤ r) : Ratio (r * r') (y / y') (e / e') := by
  refine ⟨div_pos h.1 h'.1, div_pos h.2.1 h'.2.1, ?_, ?_⟩
  · rw [div_le_iff₀ h'.2.1]
    have k : 1 ≤ r' * e' / y' := by rw [le_div_iff₀ h'.1, one_mul]; exact h'.2.2.2
    calc e ≤ r * y := h.2.2.1
      _ ≤ r * y * (r' * e' / y') := le_mul_of_one_le_right (mul_nonneg hr h.1.le) k
      _ = r * r' * (y / y') * e' := by ring
  · rw [div_le_iff₀ h'.1]
    have k : 1 ≤ r' * y' / e' := by rw [le_div_iff₀ h'.2.1, one_mul]; exact h'.2.2.1
    calc y ≤ r * e := h.2.2.2
      _ ≤ r * e * (r' * y' / e') := le_mul_of_one_le_right (mul_nonneg hr h.2.1.le) k
      _ = r * r' * (e / e') * y' := by ring

theorem Ratio.sqrt {r y e : ℝ} (h : Ratio (r ^ 2) y e) (hr : 0 ≤ r) : Ratio r (Real.sqrt y) (Real.sqrt e) := by
  refine ⟨Real.sqrt_pos.2 h.1, Real.sqrt_pos.2 h.2.1, ?_, ?_⟩
  · have := Real.sqrt_le_sqrt h.2.2.1
    rwa [Real.sqrt_mul (sq_nonneg r), Real.sqrt_sq hr] at this
  · have := Real.sqrt_le_sqrt h.2.2.2
    rwa [Real.sqrt_mul (sq_nonneg r), Real.sqrt_sq hr] at this

theorem Ratio.refl {e : ℝ} (h : 0 < e) : Ratio 1 e e := ⟨h, h, by simp, by simp⟩

theorem Ratio.near {r y e : ℝ} (h : Ratio r y e) (hr : 0 < r) : |y - e| ≤ (r - 1) * e := by
  have h1 : 1 ≤ r := by
    by_contra hc
    push Not at hc
    have a := h.2.2.1
    have b := h.2.2.2
    nlinarith [h.1, h.2.1]
  rw [abs_le]
  constructor
  · have a : e ≤ r * y := h.2.2.1
    have b : (2 - r) * r ≤ 1 := by nlinarith [sq_nonneg (r - 1)]
    have : (2 - r) * e ≤ y := by
      rcases le_or_gt 2 r with h2 | h2
      · nlinarith [h.1, h.2.1]
      · calc (2 - r) * e ≤ (2 - r) * (r * y) := mul_le_mul_of_nonneg_left a (by linarith)
          _ = (2 - r) * r * y := by ring
          _ ≤ 1 * y := mul_le_mul_of_nonneg_right b h.1.le
          _ = y := one_mul y
    linarith
  · linarith [h.2.2.2]

/-- the factor of one rounding -/
noncomputable def step (u : ℝ) : ℝ := 1 / (1 - u)

theorem one_le_step {u : ℝ} (hu : 0 ≤ u) (hu1 : u < 1) : 1 ≤ step u := by
  rw [step, le_div_iff₀ (by linarith)]; linarith

theorem Ratio.round {u e y : ℝ} (hu : 0 ≤ u) (hu1 : u < 1) (he : 0 < e) (h : Rounds u e y) : Ratio (step u) y e := by
  unfold Rounds at h
  rw [abs_of_pos he, abs_le] at h
  have h1 : 0 < 1 - u := by linarith
  have hy : (1 - u) * e ≤ y := by linarith [h.1]
  refine ⟨lt_of_lt_of_le (mul_pos h1 he) hy, he, ?_, ?_⟩
  · rw [step, div_mul_eq_mul_div, one_mul, le_div_iff₀ h1]; linarith
  · rw [step, div_mul_eq_mul_div, one_mul, le_div_iff₀ h1]
    have : y ≤ (1 + u) * e := by linarith [h.2]
    calc y * (1 - u) ≤ (1 + u) * e * (1 - u) := mul_le_mul_of_nonneg_right this h1.le
      _ = (1 - u ^ 2) * e := by ring
      _ ≤ e := by nlinarith [sq_nonneg u]

theorem ratio_tree {u : ℝ} (hu : 0 ≤ u) (hu1 : u < 1) (t : RTree ℝ) (h : ∀ x ∈ t.leaves, 0 < x) (z : ℝ) (hz : FlTree u t z) :
    Ratio (step u ^ (t.leaves.length - 1)) z t.leaves.sum := by
  have hs := one_le_step hu hu1
  induction t generalizing z with
  | rank d =>
    simp only [FlTree] at hz
    subst hz
    have : 0 < z := h z (by simp [RTree.leaves])
    simpa [RTree.leaves] using Ratio.refl this
  | node l r ihl ihr =>
    obtain ⟨a, b, ha, hb, hz⟩ := hz
    have il := ihl (fun x hx => h x (by simp [RTree.leaves, hx])) a ha
    have ir := ihr (fun x hx => h x (by simp [RTree.leaves, hx])) b hb
    have pl := leaves_pos l
    have pr := leaves_pos r
    simp only [RTree.leaves, List.length_append, List.sum_append]
    have k : l.leaves.length + r.leaves.length - 1 = (l.leaves.length + r.leaves.length - 2) + 1 := by omega
    have il' := il.mono (pow_le_pow_right₀ hs (by omega : l.leaves.length - 1 ≤ l.leaves.length + r.leaves.length - 2))
    have ir' := ir.mono (pow_le_pow_right₀ hs (by omega : r.leaves.length - 1 ≤ l.leaves.length + r.leaves.length - 2))
    have hab := il'.add ir'
    have := (Ratio.round hu hu1 hab.1 hz).trans hab (by linarith) (by positivity)
    rwa [k, pow_succ']

theorem ratio_sum {u : ℝ} (hu : 0 ≤ u) (hu1 : u < 1) (l : List ℝ) (hl : l ≠ []) (h : ∀ x ∈ l, 0 < x) (z : ℝ) (hz : FlSum u l z) (n : Nat) (hn : l.length ≤ n) :
    Ratio (step u ^ (n - 1)) z l.sum := by
  rcases hz with ⟨h0, _⟩ | ⟨t, ht, hz⟩
  · exact absurd h0 hl
  · have := ratio_tree hu hu1 t (fun x hx => h x (ht.mem_iff.1 hx)) z hz
    rw [ht.sum_eq, ht.length_eq] at this
    exact this.mono (pow_le_pow_right₀ (one_le_step hu hu1) (by omega))

/-! ### The correction -/

theorem corr_ratio {u : ℝ} (hu : 0 ≤ u) (hu1 : u < 1) (win : List ℝ) (n nt i : Nat) (hwin : win.length = n) (hn : 0 < n) (hpos : ∀ x ∈ win, 0 < x) (hi : i < nt) (c : ℝ)
    (h : FlConvCorr u win n nt i c) : Ratio (step u ^ (n + 2)) c (convCorr win n nt i) := by
  have hs := one_le_step hu hu1
  have hs0 : 0 < step u := by linarith
  have hnr : (0 : ℝ) < n := by exact_mod_cast hn
  have hne : win ≠ [] := by rintro rfl; simp at hwin; omega
  unfold FlConvCorr at h
  unfold convCorr
  cases hc : Coef.corrRange n nt i with
  | none =>
    rw [hc] at h
    simp only at h ⊢
    subst h
    exact (Ratio.refl one_pos).mono (one_le_pow₀ hs)
  | some lu =>
    obtain ⟨lb, ub⟩ := lu
    rw [hc] at h
    simp only at h ⊢
    obtain ⟨mn, ww, fac, s, q, ⟨s0, hs0', hmn⟩, h1, h2, h3, h4, h5⟩ := h
    have hsub : Rd.pslice win lb ub ≠ [] := by
      unfold Coef.corrRange Coef.half at hc
      simp only at hc
      intro h0
      have hlen : (Rd.pslice win lb ub).length = 0 := by rw [h0]; rfl
      unfold Rd.pslice at hlen
      simp only [List.length_take, List.length_drop] at hlen
      split at hc
      · simp only [Option.some.injEq, Prod.mk.injEq] at hc
        omega
      · split at hc
        · simp only [Option.some.injEq, Prod.mk.injEq] at hc
          omega
        · exact absurd hc (by simp)
    have hmem : ∀ x ∈ Rd.pslice win lb ub, x ∈ win := by
      intro x hx
      unfold Rd.pslice at hx
      exact List.mem_of_mem_drop (List.mem_of_mem_take hx)
    have hlen : (Rd.pslice win lb ub).length ≤ n := by
      unfold Rd.pslice
      simp only [List.length_take, List.length_drop]
      omega
    have r0 := ratio_sum hu hu1 win hne hpos s0 hs0' n hwin.le
    have r1 : Ratio (step u ^ n) mn (win.sum / n) := by
      rw [hwin] at hmn
      have a := r0.div (Ratio.refl hnr) (by positivity)
      have b := (Ratio.round hu hu1 (div_pos r0.1 hnr) hmn).trans a hs0.le (by positivity)
      rw [mul_one, ← pow_succ'] at b
      have : n - 1 + 1 = n := by omega
      rwa [this] at b
    have r2 : Ratio (step u ^ (n + 1)) ww (1 / (win.sum / n)) := by
      have a := (Ratio.refl one_pos).div r1 zero_le_one
      have b := (Ratio.round hu hu1 (div_pos one_pos r1.1) h1).trans a hs0.le (by positivity)
      rwa [one_mul, ← pow_succ'] at b
    have r3 : Ratio (step u ^ (n + 2)) fac (n / (1 / (win.sum / n))) := by
      have a := (Ratio.refl hnr).div r2 zero_le_one
      have b := (Ratio.round hu hu1 (div_pos hnr r2.1) h2).trans a hs0.le (by positivity)
      rwa [one_mul, ← pow_succ'] at b
    have r4 := ratio_sum hu hu1 _ hsub (fun x hx => hpos x (hmem x hx)) s h3 n hlen
    have r5 : Ratio ((step u ^ (n + 1)) ^ 2) q (n / (1 / (win.sum / n)) / (Rd.pslice win lb ub).sum) := by
      have a := r3.div r4 (by positivity)
      have b := (Ratio.round hu hu1 (div_pos r3.1 r4.1) h4).trans a hs0.le (by positivity)
      refine b.mono (le_of_eq ?_)
      rw [← pow_add, ← pow_succ', ← pow_mul]
      congr 1
      omega
    have r6 := (Ratio.round hu hu1 (Real.sqrt_pos.2 r5.1) h5).trans (r5.sqrt (by positivity)) hs0.le (by positivity)
    rw [← pow_succ'] at r6
    have e : (n : ℝ) / Spod.winWeight win = n / (1 / (win.sum / n)) := by
      unfold Spod.winWeight
      rw [hwin]
    rw [e]
    exact r6

/-! ### The transforms -/

/-- the values of all snapshots at grid point number `x` -/
def pointSeries (frames : List (Arr ℝ)) (x : Nat) : List ℝ := frames.map fun a => flat a x

theorem centred_approx {u : ℝ} (hu : 0 ≤ u) (frames : List (Arr ℝ)) (hfr : frames ≠ []) (x : Nat) (X : ℝ) (hX : ∀ a ∈ frames, |flat a x| ≤ X) (n : Nat) (y : List ℝ)
    (h : FlCentred u (pointSeries frames x) y) (t τ : Nat) (ht : t < frames.length) (hτ : τ < n) :
    Approx u (frames.length + 2) ((Coef.convWindow 0 n y t).getD τ 0) (padFluct frames x ((t : Int) + τ - ((n + 1) / 2 : Nat))) (2 * X) := by
  obtain ⟨m, hm, hy⟩ := h
  obtain ⟨nt, hnt⟩ : ∃ nt, nt = frames.length := ⟨_, rfl⟩
  have hlv : (pointSeries frames x).length = nt := by simp [pointSeries, hnt]
  have hly : y.length = nt := by rw [← hy.length_eq, hlv]
  have hX0 : 0 ≤ X := by
    obtain ⟨a, ha⟩ := List.exists_mem_of_ne_nil _ hfr
    exact (abs_nonneg _).trans (hX a ha)
  have hget : ∀ s < nt, (pointSeries frames x).getD s 0 = flat (frames.getD s ⟨[], fun _ => 0⟩) x := by
    intro s hs
    rw [pointSeries, List.getD_eq_getElem _ _ (by simpa [pointSeries, ← hnt] using hs), List.getElem_map, List.getD_eq_getElem _ _ (by omega)]
  have hblock : FlBlock u .longtime (pointSeries frames x) 0 nt (fun s => y.getD s 0) := by
    refine ⟨m, m, hm, rounds_exact hu _, fun s hs => ?_⟩
    show Rounds u _ (y.getD s 0)
    rw [Nat.zero_add, List.getD_eq_getElem _ _ (by omega), List.getD_eq_getElem _ _ (by omega)]
    exact List.forall₂_iff_get.1 hy |>.2 s (by omega) (by omega)
  have hXv : ∀ v ∈ pointSeries frames x, |v| ≤ X := by
    intro v hv
    obtain ⟨a, ha, rfl⟩ := List.mem_map.1 hv
    exact hX a ha
  have hn : 0 < nt := by rw [hnt]; exact List.length_pos_iff.2 hfr
  obtain ⟨-, w2⟩ := conv_window (0 : ℝ) n y t (by omega)
  rw [List.getD_eq_getElem?_getD, w2 τ hτ, Option.getD_some]
  unfold padFluct
  rw [← hnt]
  have hz : Approx u (nt + 2) 0 0 (2 * X) := ⟨by
    have : 0 ≤ (1 + u) ^ (nt + 2) - 1 := sub_nonneg.2 (one_le_pow₀ (by linarith))
    simp only [sub_self, abs_zero]
    positivity, by simp; linarith⟩
  by_cases h1 : (n + 1) / 2 ≤ t + τ
  · rw [if_pos (by simpa [Coef.half] using h1)]
    by_cases h2 : t + τ - (n + 1) / 2 < nt
    · rw [if_pos (by omega)]
      have e2 : ((t : Int) + τ - ((n + 1) / 2 : Nat)).toNat = t + τ - (n + 1) / 2 := by omega
      have := block_approx hu .longtime (pointSeries frames x) X hXv 0 nt hn (by omega) _ hblock _ h2
      rw [hlv] at this
      have e3 : specFluct .longtime (pointSeries frames x) 0 nt (t + τ - (n + 1) / 2) =
          flat (frames.getD (t + τ - (n + 1) / 2) ⟨[], fun _ => 0⟩) x - (∑ s ∈ range nt, flat (frames.getD s ⟨[], fun _ => 0⟩) x) / nt := by
        simp only [specFluct]
        rw [Nat.zero_add, hget _ h2, hlv]
        congr 2
        rw [← list_range_sum]
        congr 1
        refine List.ext_getElem (by simp [hlv]) fun i i1 i2 => ?_
        rw [List.getElem_map, List.getElem_range, ← hget i (by omega), List.getD_eq_getElem _ _ i1]
      rw [e2, ← e3]
      exact this
    · rw [if_neg (by omega)]
      have : y.getD (t + τ - (n + 1) / 2) 0 = 0 := by rw [List.getD_eq_default _ _ (by omega)]
      show Approx u (nt + 2) (y.getD (t + τ - Coef.half n) 0) 0 (2 * X)
      have e : Coef.half n = (n + 1) / 2 := rfl
      rw [e, this]
      exact hz
  · rw [if_neg (by simpa [Coef.half] using h1), if_neg (by omega)]
    exact hz

theorem bin_near {u : ℝ} (hu : 0 ≤ u) (γ : ℝ) (ω : ℂ) (hω : ‖ω‖ = 1) (frames : List (Arr ℝ)) (hfr : frames ≠ []) (x : Nat) (X : ℝ) (hX : ∀ a ∈ frames, |flat a x| ≤ X)
    (win : List ℝ) (n : Nat) (hn : 0 < n) (hwin : win.length = n) (hw : ∀ v ∈ win, 0 ≤ v) (κ : ℝ) (hκ : ∀ v ∈ win, n * v ≤ κ * win.sum) (t f : Nat) (ht : t < frames.length) (h : ℂ)
    (hh : FlConvBin u γ ω n win (pointSeries frames x) t f h) :
    ‖h - padHat win ω n frames x t f‖ ≤ ((1 + u) ^ (frames.length + 3) * (1 + γ * κ) - 1) * (2 * X * win.sum) ∧ ‖padHat win ω n frames x t f‖ ≤ 2 * X * win.sum := by
  obtain ⟨y, z, hy, hz, hd⟩ := hh
  obtain ⟨P, hP⟩ : ∃ P, P = (1 + u) ^ (frames.length + 3) := ⟨_, rfl⟩
  have hP1 : 1 ≤ P := by rw [hP]; exact one_le_pow₀ (by linarith)
  have hX0 : 0 ≤ X := by
    obtain ⟨a, ha⟩ := List.exists_mem_of_ne_nil _ hfr
    exact (abs_nonneg _).trans (hX a ha)
  obtain ⟨e, he⟩ : ∃ e : Nat → ℝ, e = fun τ => win.getD τ 0 * padFluct frames x ((t : Int) + τ - ((n + 1) / 2 : Nat)) := ⟨_, rfl⟩
  have hwt : ∀ τ < n, 0 ≤ win.getD τ 0 ∧ n * win.getD τ 0 ≤ κ * win.sum := fun τ hτ => by
    have : win.getD τ 0 ∈ win := by
      rw [List.getD_eq_getElem _ _ (by omega)]; exact List.getElem_mem _
    exact ⟨hw _ this, hκ _ this⟩
  have ha : ∀ τ < n, Approx u (frames.length + 3) (z τ) (e τ) (2 * X * win.getD τ 0) := fun τ hτ => by
    have := (centred_approx hu frames hfr x X hX n y hy t τ ht hτ).mul hu _ (hz τ hτ)
    rw [abs_of_nonneg (hwt τ hτ).1, mul_comm (padFluct _ _ _)] at this
    rw [he]
    exact this
  have hsum : ∑ τ ∈ range n, win.getD τ 0 = win.sum := by
    rw [← hwin, ← list_range_sum]
    congr 1
    refine List.ext_getElem (by simp) fun i h1 h2 => ?_
    simp [List.getElem?_eq_getElem h2]
  have hspec : padHat win ω n frames x t f = ∑ τ ∈ range n, (e τ : ℂ) * ω ^ (τ * f) := by rw [he]; rfl
  have hωt : ∀ t, ‖ω ^ t‖ = 1 := fun t => by rw [norm_pow, hω, one_pow]
  have hHn : ‖padHat win ω n frames x t f‖ ≤ 2 * X * win.sum := by
    rw [hspec, ← hsum, Finset.mul_sum]
    refine (norm_sum_le _ _).trans (Finset.sum_le_sum fun τ hτ => ?_)
    rw [norm_mul, hωt, mul_one, Complex.norm_real]
    exact (ha τ (mem_range.1 hτ)).2
  have hd1 : ‖∑ τ ∈ range n, (z τ : ℂ) * ω ^ (τ * f) - padHat win ω n frames x t f‖ ≤ (P - 1) * (2 * X * win.sum) := by
    rw [← hsum, Finset.mul_sum, Finset.mul_sum, hspec, ← Finset.sum_sub_distrib]
    refine (norm_sum_le _ _).trans (Finset.sum_le_sum fun τ hτ => ?_)
    rw [← sub_mul, norm_mul, hωt, mul_one, ← Complex.ofReal_sub, Complex.norm_real, hP]
    exact (ha τ (mem_range.1 hτ)).1
  have hn0 : (0 : ℝ) < n := by exact_mod_cast hn
  have hd2 := hd (P * (2 * X * (κ * win.sum / n))) fun τ hτ => (ha τ hτ).size.trans (by
    have : win.getD τ 0 ≤ κ * win.sum / n := by rw [le_div_iff₀ hn0]; linarith [(hwt τ hτ).2]
    have hP0 : 0 ≤ P := by linarith
    rw [← hP]
    gcongr)
  have e1 : γ * (n * (P * (2 * X * (κ * win.sum / n)))) = P * (γ * κ) * (2 * X * win.sum) := by field_simp
  rw [e1] at hd2
  refine ⟨?_, hHn⟩
  rw [← hP]
  have := norm_sub_le_norm_sub_add_norm_sub h (∑ τ ∈ range n, (z τ : ℂ) * ω ^ (τ * f)) (padHat win ω n frames x t f)
  calc _ ≤ P * (γ * κ) * (2 * X * win.sum) + (P - 1) * (2 * X * win.sum) := by linarith
    _ = _ := by ring

/-! ### The coefficients -/

/-- the relative error of a coefficient, for `nt` snapshots, windows of `n`, `N` grid points, unit roundoff `u`, transforms of relative error `γ` and a window whose values are at most
    `κ` times their mean -/
noncomputable def convBound (u γ κ : ℝ) (nt n N : Nat) : ℝ := (1 + u) ^ (nt + 6) * (1 + γ * κ) * (1 + roundBound u N 0) / (1 - u) ^ (n + 2) - 1

theorem coef_near {u : ℝ} (hu : 0 ≤ u) (hu1 : u < 1) (γ : ℝ) (hγ : 0 ≤ γ) (ω : ℂ) (hω : ‖ω‖ = 1) (frames : List (Arr ℝ)) (hfr : frames ≠ []) (pts : List Nat) (X : ℝ)
    (hX : ∀ x ∈ pts, ∀ a ∈ frames, |flat a x| ≤ X) (hX0 : 0 ≤ X)
    (win : List ℝ) (n : Nat) (hn : 0 < n) (hwin : win.length = n) (hw : ∀ v ∈ win, 0 < v) (κ : ℝ) (hκ : ∀ v ∈ win, n * v ≤ κ * win.sum)
    (w : Nat → ℝ) (hwt : ∀ x ∈ pts, 0 ≤ w x) (phi : Nat → ℂ) (t f : Nat) (ht : t < frames.length) (z : ℂ)
    (hz : FlConvCoef u γ ω n frames.length win pts (pointSeries frames) w phi t f z) :
    ‖z - (padCorr win n frames.length t : ℂ) * (pts.map fun x => star (phi x) * (w x : ℂ) * padHat win ω n frames x t f).sum‖ ≤
      convBound u γ κ frames.length n pts.length * (padCorr win n frames.length t * (2 * X * win.sum * (pts.map fun x => w x * ‖phi x‖).sum)) := by
  obtain ⟨c, h, v, s, y, hc, hh, hv, hs, hy, hz1, hz2⟩ := hz
  have hrat := corr_ratio hu hu1 win n frames.length t hwin hn hw ht c hc
  rw [convCorr_spec win n _ t hwin hn ht] at hrat
  obtain ⟨c0, hc0⟩ : ∃ c0, c0 = padCorr win n frames.length t := ⟨_, rfl⟩
  rw [← hc0] at hrat ⊢
  have hc0p : 0 < c0 := hrat.2.1
  have hcp : 0 < c := hrat.1
  have hcn := hrat.near (pow_pos (by have := one_le_step hu hu1; linarith) _)
  obtain ⟨W, hW⟩ : ∃ W, W = 2 * X * win.sum := ⟨_, rfl⟩
  have hws : 0 ≤ win.sum := List.sum_nonneg fun v hv => (hw v hv).le
  have hW0 : 0 ≤ W := by rw [hW]; positivity
  have hκ0 : 0 ≤ γ * κ := by
    refine mul_nonneg hγ ?_
    obtain ⟨v, hv⟩ := List.exists_mem_of_ne_nil win (by rintro rfl; simp at hwin; omega)
    have h1 := hκ v hv
    have h2 := hw v hv
    have h3 : (0 : ℝ) < n := by exact_mod_cast hn
    by_contra hneg
    push Not at hneg
    nlinarith [mul_pos h3 h2]
  obtain ⟨T0, hT0⟩ : ∃ T0, T0 = (1 + u) ^ (frames.length + 3) * (1 + γ * κ) := ⟨_, rfl⟩
  have hT01 : 1 ≤ T0 := by
    rw [hT0]
    exact one_le_mul_of_one_le_of_one_le (one_le_pow₀ (by linarith)) (by linarith)
  obtain ⟨g, hg⟩ : ∃ g : Fin pts.length → ℂ, g = fun k => (w (pts.get k) : ℂ) * padHat win ω n frames (pts.get k) t f := ⟨_, rfl⟩
  obtain ⟨a, ha⟩ : ∃ a : Fin pts.length → ℂ, a = fun k => star (phi (pts.get k)) := ⟨_, rfl⟩
  obtain ⟨A, hA⟩ : ∃ A, A = ∑ k, ‖a k‖ * (w (pts.get k) * W) := ⟨_, rfl⟩
  have hw0 : ∀ k, 0 ≤ w (pts.get k) := fun k => hwt _ (List.get_mem _ _)
  have hbin := fun k => bin_near hu γ ω hω frames hfr (pts.get k) X (hX _ (List.get_mem _ _)) win n hn hwin (fun v hv => (hw v hv).le) κ hκ t f ht (h k) (hh k)
  rw [← hT0, ← hW] at hbin
  have hgn : ∀ k, ‖g k‖ ≤ w (pts.get k) * W := by
    intro k
    rw [hg, norm_mul, Complex.norm_real, Real.norm_of_nonneg (hw0 k)]
    exact mul_le_mul_of_nonneg_left (hbin k).2 (hw0 k)
  have hvn : ∀ k, ‖v k - g k‖ ≤ ((1 + u) * T0 - 1) * (w (pts.get k) * W) := by
    intro k
    have h1 := scaled_round hu _ _ _ (hv k)
    rw [abs_of_nonneg (hw0 k)] at h1
    have h2 : ‖(w (pts.get k) : ℂ) * h k - g k‖ ≤ (T0 - 1) * (w (pts.get k) * W) := by
      rw [hg]
      simp only
      rw [← mul_sub, norm_mul, Complex.norm_real, Real.norm_of_nonneg (hw0 k)]
      calc _ ≤ w (pts.get k) * ((T0 - 1) * W) := mul_le_mul_of_nonneg_left (hbin k).1 (hw0 k)
        _ = _ := by ring
    have h3 : ‖h k‖ ≤ T0 * W := by
      have := norm_sub_norm_le (h k) (padHat win ω n frames (pts.get k) t f)
      have h4 := (hbin k).1
      have h5 := (hbin k).2
      linarith
    have h4 := norm_sub_le_norm_sub_add_norm_sub (v k) ((w (pts.get k) : ℂ) * h k) (g k)
    have h5 : u * (w (pts.get k) * ‖h k‖) ≤ u * (w (pts.get k) * (T0 * W)) := mul_le_mul_of_nonneg_left (mul_le_mul_of_nonneg_left h3 (hw0 k)) hu
    calc _ ≤ u * (w (pts.get k) * (T0 * W)) + (T0 - 1) * (w (pts.get k) * W) := by linarith
      _ = _ := by ring
  obtain ⟨T, hT⟩ : ∃ T, T = (1 + u) * T0 := ⟨_, rfl⟩
  rw [← hT] at hvn
  have hT1 : 1 ≤ T := by rw [hT]; nlinarith
  have hvs : ∀ k, ‖v k‖ ≤ T * (w (pts.get k) * W) := by
    intro k
    have := norm_sub_norm_le (v k) (g k)
    have h1 := hvn k
    have h2 := hgn k
    linarith
  obtain ⟨R, hR⟩ : ∃ R, R = roundBound u pts.length 0 := ⟨_, rfl⟩
  have hR0 : 0 ≤ R := by rw [hR]; exact roundBound_nonneg hu _ _
  have hA0 : 0 ≤ A := by
    rw [hA]
    exact Finset.sum_nonneg fun k _ => mul_nonneg (norm_nonneg _) (mul_nonneg (hw0 k) hW0)
  have hrow := row_point hu a v s (by rw [ha]; exact hs)
  rw [← hR] at hrow
  have k1 : ∑ k, ‖a k‖ * ‖v k‖ ≤ T * A := by
    rw [hA, Finset.mul_sum]
    refine Finset.sum_le_sum fun k _ => ?_
    calc _ ≤ ‖a k‖ * (T * (w (pts.get k) * W)) := mul_le_mul_of_nonneg_left (hvs k) (norm_nonneg _)
      _ = _ := by ring
  have k2 : ‖∑ k, a k * v k - ∑ k, a k * g k‖ ≤ (T - 1) * A := by
    rw [← Finset.sum_sub_distrib, hA, Finset.mul_sum]
    refine (norm_sum_le _ _).trans (Finset.sum_le_sum fun k _ => ?_)
    rw [← mul_sub, norm_mul]
    calc _ ≤ ‖a k‖ * ((T - 1) * (w (pts.get k) * W)) := mul_le_mul_of_nonneg_left (hvn k) (norm_nonneg _)
      _ = _ := by ring
  have k3 : ‖∑ k, a k * g k‖ ≤ A := by
    rw [hA]
    refine (norm_sum_le _ _).trans (Finset.sum_le_sum fun k _ => ?_)
    rw [norm_mul]
    exact mul_le_mul_of_nonneg_left (hgn k) (norm_nonneg _)
  obtain ⟨E, hE⟩ : ∃ E, E = ∑ k, a k * g k := ⟨_, rfl⟩
  rw [← hE] at k2 k3
  have hsE : ‖s - E‖ ≤ ((1 + R) * T - 1) * A := by
    have := norm_sub_le_norm_sub_add_norm_sub s (∑ k, a k * v k) E
    have h1 : R * ∑ k, ‖a k‖ * ‖v k‖ ≤ R * (T * A) := mul_le_mul_of_nonneg_left k1 hR0
    calc _ ≤ R * (T * A) + (T - 1) * A := by linarith
      _ = _ := by ring
  have hsn : ‖s‖ ≤ (1 + R) * T * A := by
    have := norm_sub_norm_le s E
    linarith
  obtain ⟨ρ, hρ⟩ : ∃ ρ, ρ = step u ^ (n + 2) := ⟨_, rfl⟩
  rw [← hρ] at hcn hrat
  have hc1 : c ≤ ρ * c0 := hrat.2.2.2
  have hρ1 : 1 ≤ ρ := by rw [hρ]; exact one_le_pow₀ (one_le_step hu hu1)
  obtain ⟨Q, hQ⟩ : ∃ Q, Q = (1 + R) * T := ⟨_, rfl⟩
  rw [← hQ] at hsE hsn
  have hQ1 : 1 ≤ Q := by rw [hQ]; exact one_le_mul_of_one_le_of_one_le (by linarith) hT1
  have hcs : ‖(c : ℂ) * s - c0 * E‖ ≤ (ρ * Q - 1) * (c0 * A) := by
    have e1 : (c : ℂ) * s - c0 * E = (c : ℂ) * (s - E) + ((c - c0 : ℝ) : ℂ) * E := by push_cast; ring
    rw [e1]
    refine (norm_add_le _ _).trans ?_
    rw [norm_mul, norm_mul, Complex.norm_real, Complex.norm_real, Real.norm_of_nonneg hcp.le, Real.norm_eq_abs]
    have m1 : c * ‖s - E‖ ≤ ρ * c0 * ((Q - 1) * A) := mul_le_mul hc1 hsE (norm_nonneg _) (mul_nonneg (by linarith) hc0p.le)
    have m2 : |c - c0| * ‖E‖ ≤ (ρ - 1) * c0 * A := mul_le_mul hcn k3 (norm_nonneg _) (mul_nonneg (by linarith) hc0p.le)
    calc _ ≤ ρ * c0 * ((Q - 1) * A) + (ρ - 1) * c0 * A := by linarith
      _ = _ := by ring
  have hcsn : c * ‖s‖ ≤ ρ * c0 * (Q * A) := mul_le_mul hc1 hsn (norm_nonneg _) (mul_nonneg (by linarith) hc0p.le)
  have hy1 := scaled_round hu _ _ _ hy
  rw [abs_of_pos hcp] at hy1
  have hyE : ‖y - c0 * E‖ ≤ ((1 + u) * (ρ * Q) - 1) * (c0 * A) := by
    have := norm_sub_le_norm_sub_add_norm_sub y ((c : ℂ) * s) (c0 * E)
    have h1 : u * (c * ‖s‖) ≤ u * (ρ * c0 * (Q * A)) := mul_le_mul_of_nonneg_left hcsn hu
    calc _ ≤ u * (ρ * c0 * (Q * A)) + (ρ * Q - 1) * (c0 * A) := by linarith
      _ = _ := by ring
  have hE2 : ‖(c0 : ℂ) * E‖ ≤ c0 * A := by
    rw [norm_mul, Complex.norm_real, Real.norm_of_nonneg hc0p.le]
    exact mul_le_mul_of_nonneg_left k3 hc0p.le
  have hyn : ‖y‖ ≤ (1 + u) * (ρ * Q) * (c0 * A) := by
    have := norm_sub_norm_le y ((c0 : ℂ) * E)
    linarith
  have hz3 := parts_round hu y z hz1 hz2
  have hfin : ‖z - c0 * E‖ ≤ ((1 + u) * ((1 + u) * (ρ * Q)) - 1) * (c0 * A) := by
    have := norm_sub_le_norm_sub_add_norm_sub z y (c0 * E)
    have h1 : u * ‖y‖ ≤ u * ((1 + u) * (ρ * Q) * (c0 * A)) := mul_le_mul_of_nonneg_left hyn hu
    calc _ ≤ u * ((1 + u) * (ρ * Q) * (c0 * A)) + ((1 + u) * (ρ * Q) - 1) * (c0 * A) := by linarith
      _ = _ := by ring
  have lsum : ∀ {M : Type} [AddCommMonoid M] (F : Nat → M), (pts.map F).sum = ∑ k : Fin pts.length, F (pts.get k) := by
    intro M _ F
    rw [← List.sum_ofFn]
    congr 1
    refine List.ext_getElem (by simp) fun i i1 i2 => ?_
    simp
  have eE : E = (pts.map fun x => star (phi x) * (w x : ℂ) * padHat win ω n frames x t f).sum := by
    rw [lsum, hE, ha, hg]
    exact Finset.sum_congr rfl fun k _ => (mul_assoc _ _ _).symm
  have eA : A = W * (pts.map fun x => w x * ‖phi x‖).sum := by
    rw [lsum, hA, ha, Finset.mul_sum]
    refine Finset.sum_congr rfl fun k _ => ?_
    simp only [norm_star]
    ring
  have eB : convBound u γ κ frames.length n pts.length = (1 + u) * ((1 + u) * (ρ * Q)) - 1 := by
    rw [convBound, hρ, hQ, hT, hT0, hR, step]
    rw [one_div, inv_pow]
    field_simp
    ring
  rw [eB, ← eE, ← hW, ← eA]
  exact hfin

/-- the grid points of rank 0 when axis `ax` is shared by `p` ranks -/
def firstPoints (sh : List Nat) (ax p : Nat) : List Nat := (List.range (size sh)).filter fun x => (unravel sh x).getD ax 0 < countOf (ext sh ax) p 0

theorem sum_filter_range {M : Type} [AddCommMonoid M] (n : Nat) (q : Nat → Prop) [DecidablePred q] (F : Nat → M) :
    (((List.range n).filter fun x => q x).map F).sum = ∑ x ∈ range n, if q x then F x else 0 := by
  induction n with
  | zero => rfl
  | succ n ih =>
    rw [List.range_succ, List.filter_append, List.map_append, List.sum_append, ih, Finset.sum_range_succ]
    congr 1
    by_cases h : q n <;> simp [h]

theorem sum_all_range {M : Type} [AddCommMonoid M] (n : Nat) (F : Nat → M) : ((List.range n).map F).sum = ∑ x ∈ range n, F x := by
  induction n with
  | zero => rfl
  | succ n ih => rw [List.range_succ, List.map_append, List.sum_append, ih, Finset.sum_range_succ]; simp

/-- **C247 on ranks.** `compute_coeffs_conv` on `p` ranks over the whole frequency axis in floating-point arithmetic with unit roundoff `u`, of data of magnitude at most `X`, with a positive
    window: mean, fluctuations, window, transforms (relative error `γ`), weights, products with the modes, additions in any order, correction and conversion.  Every computed coefficient
    differs from the exact one, which is the entry of `coeffs.npy` of the exact run, by at most `convBound` times the correction, times `2 X Σ window`, times the weighted sum of
    the moduli of the mode over the grid points of rank 0. -/
theorem conv_floating_ranks (S : Stored) (o : Opts) (win : List ℝ) (ω : ℂ) (hω : ‖ω‖ = 1) (n : Nat) (junk : Nat → Nat → Nat → Nat → ℂ)
    (frames : List (Arr ℝ)) (dims sh : List Nat) (hdef : (o.tLb = none ∨ o.tUb = none) ∧ o.freqIdx = none)
    (hL : 2 ≤ S.freq.length) (hLn : S.freq.length ≤ n) (hnm : 2 ≤ S.nModes) (hwin : win.length = n) (hw : ∀ v ∈ win, 0 < v) (κ : ℝ) (hκ : ∀ v ∈ win, n * v ≤ κ * win.sum)
    (F : Fits S (List.range S.freq.length) frames dims sh) (hfr : frames ≠ []) (ax : Nat) (hax : IsFirstMax dims ax)
    (hwt : ∀ x < size sh, 0 ≤ storedWeight S x) (p : Nat) (hp : 0 < p) (hone : ∀ r < p, size (shOf sh ax p r) ≠ 1)
    (s : (β : Type) → List (Write β) → List (Write β)) (hs : ∀ β l, (s β l).Perm l) :
    ∃ G, convolve S o n win ω junk frames (ranksOf p) (some s) = some G ∧
      ∀ u : ℝ, 0 ≤ u → u < 1 → ∀ γ : ℝ, 0 ≤ γ → ∀ X : ℝ, 0 ≤ X → (∀ a ∈ frames, ∀ x < size sh, |flat a x| ≤ X) →
      ∀ f < S.freq.length, ∀ t < frames.length, ∀ m < S.nModes, ∃ e, fileEntry G.coeffs [f, t, m] = some e ∧
        ∀ z, FlConvCoef u γ ω n frames.length win (firstPoints sh ax p) (pointSeries frames) (storedWeight S) (fun x => storedMode S sh f x m) t f z →
          ‖z - e‖ ≤ convBound u γ κ frames.length n (firstPoints sh ax p).length * (padCorr win n frames.length t *
            (2 * X * win.sum * ∑ x ∈ range (size sh), if (unravel sh x).getD ax 0 < countOf (ext sh ax) p 0 then storedWeight S x * ‖storedMode S sh f x m‖ else 0)) := by
  obtain ⟨G, h1, _, h3, _⟩ := conv_ranks S o win ω n junk frames dims sh hdef hL hLn hnm hwin F hfr ax hax p hp hone s hs
  refine ⟨G, h1, fun u hu hu1 γ hγ X hX0 hX f hf t ht m hm => ⟨_, h3 f hf t ht m hm, fun z hz => ?_⟩⟩
  have hlt : ∀ x ∈ firstPoints sh ax p, x < size sh := fun x hx => List.mem_range.1 (List.mem_of_mem_filter hx)
  have := coef_near hu hu1 γ hγ ω hω frames hfr (firstPoints sh ax p) X (fun x hx a ha => hX a ha x (hlt x hx)) hX0 win n (by omega) hwin hw κ hκ (storedWeight S)
    (fun x hx => hwt x (hlt x hx)) (fun x => storedMode S sh f x m) t f ht z hz
  rw [firstPoints, sum_filter_range, sum_filter_range] at this
  exact this

/-- **C247.** `compute_coeffs_conv` on one process in floating-point arithmetic: every computed coefficient differs from the exact one by at most `convBound` times the correction,
    times `2 X Σ window`, times the weighted sum of the moduli of the mode over the grid. -/
theorem conv_floating (S : Stored) (o : Opts) (win : List ℝ) (ω : ℂ) (hω : ‖ω‖ = 1) (n : Nat) (junk : Nat → Nat → Nat → Nat → ℂ)
    (frames : List (Arr ℝ)) (dims sh : List Nat) (hdef : (o.tLb = none ∨ o.tUb = none) ∧ o.freqIdx = none)
    (hL : 2 ≤ S.freq.length) (hLn : S.freq.length ≤ n) (hnm : 2 ≤ S.nModes) (hwin : win.length = n) (hw : ∀ v ∈ win, 0 < v) (κ : ℝ) (hκ : ∀ v ∈ win, n * v ≤ κ * win.sum)
    (F : Fits S (List.range S.freq.length) frames dims sh) (hfr : frames ≠ []) (hd : dims ≠ []) (hwt : ∀ x < size sh, 0 ≤ storedWeight S x) (hone : size sh ≠ 1) :
    ∃ G, convolve S o n win ω junk frames [none] none = some G ∧
      ∀ u : ℝ, 0 ≤ u → u < 1 → ∀ γ : ℝ, 0 ≤ γ → ∀ X : ℝ, 0 ≤ X → (∀ a ∈ frames, ∀ x < size sh, |flat a x| ≤ X) →
      ∀ f < S.freq.length, ∀ t < frames.length, ∀ m < S.nModes, ∃ e, fileEntry G.coeffs [f, t, m] = some e ∧
        ∀ z, FlConvCoef u γ ω n frames.length win (List.range (size sh)) (pointSeries frames) (storedWeight S) (fun x => storedMode S sh f x m) t f z →
          ‖z - e‖ ≤ convBound u γ κ frames.length n (size sh) * (padCorr win n frames.length t *
            (2 * X * win.sum * ∑ x ∈ range (size sh), storedWeight S x * ‖storedMode S sh f x m‖)) := by
  obtain ⟨G, h1, _, h3, _⟩ := conv_serial S o win ω n junk frames dims sh hdef hL hLn hnm hwin F hfr hd hone
  refine ⟨G, h1, fun u hu hu1 γ hγ X hX0 hX f hf t ht m hm => ⟨_, h3 f hf t ht m hm, fun z hz => ?_⟩⟩
  have := coef_near hu hu1 γ hγ ω hω frames hfr (List.range (size sh)) X (fun x hx a ha => hX a ha x (List.mem_range.1 hx)) hX0 win n (by omega) hwin hw κ hκ (storedWeight S)
    (fun x hx => hwt x (List.mem_range.1 hx)) (fun x => storedMode S sh f x m) t f ht z hz
  rw [sum_all_range, sum_all_range, List.length_range] at this
  exact this

/-- **C247.** The relative error in units of the roundoff: at most twice `(nt + n + 2 N + 9) u + γ κ` -/
theorem convBound_le {u : ℝ} (hu : 0 ≤ u) (γ κ : ℝ) (nt n N : Nat) (h1 : ((nt + 6 : ℕ) : ℝ) * u ≤ 1 / 100) (h2 : ((n + 2 : ℕ) : ℝ) * u ≤ 1 / 100)
    (h3 : ((2 * N + 1 : ℕ) : ℝ) * u ≤ 1 / 100) (h0 : 0 ≤ γ * κ) (h4 : γ * κ ≤ 1 / 100) :
    convBound u γ κ nt n N ≤ 2 * (((nt + n + 2 * N + 9 : ℕ) : ℝ) * u + γ * κ) := by
  have g1 := pow_near hu _ h1
  have g3 := roundBound_le hu N 0 (by simpa using h3)
  have g30 := roundBound_nonneg hu N 0
  have g4 := one_add_mul_le_pow (a := -u) (by
    have : u ≤ ((n + 2 : ℕ) : ℝ) * u := le_mul_of_one_le_left hu (by exact_mod_cast (by omega : 1 ≤ n + 2))
    linarith) (n + 2)
  obtain ⟨a, ha⟩ : ∃ a, a = (1 + u) ^ (nt + 6) - 1 := ⟨_, rfl⟩
  have ha0 : 0 ≤ a := by rw [ha]; exact sub_nonneg.2 (one_le_pow₀ (by linarith))
  obtain ⟨b, hb⟩ : ∃ b, b = roundBound u N 0 := ⟨_, rfl⟩
  obtain ⟨p, hp⟩ : ∃ p, p = ((nt + 6 : ℕ) : ℝ) * u := ⟨_, rfl⟩
  obtain ⟨r, hr⟩ : ∃ r, r = ((n + 2 : ℕ) : ℝ) * u := ⟨_, rfl⟩
  obtain ⟨q, hq⟩ : ∃ q, q = ((2 * N + 1 : ℕ) : ℝ) * u := ⟨_, rfl⟩
  have e : ((nt + n + 2 * N + 9 : ℕ) : ℝ) * u = p + r + q := by rw [hp, hr, hq]; push_cast; ring
  rw [e]
  obtain ⟨g, hg⟩ : ∃ g, g = γ * κ := ⟨_, rfl⟩
  have hr0 : 0 ≤ r := by rw [hr]; positivity
  have hp0 : 0 ≤ p := by rw [hp]; positivity
  have hq0 : 0 ≤ q := by rw [hq]; positivity
  rw [← hp] at h1
  rw [← hr] at h2
  rw [← hq] at h3
  rw [← ha, ← hp] at g1
  rw [← hb] at g3 g30
  have g3' : b ≤ 3 / 2 * q := by rw [hq]; simpa using g3
  rw [← hg] at h0 h4 ⊢
  obtain ⟨d, hd⟩ : ∃ d, d = (1 - u) ^ (n + 2) := ⟨_, rfl⟩
  have hd1 : 1 - r ≤ d := by
    rw [hd, hr]
    have : 1 + ((n + 2 : ℕ) : ℝ) * -u ≤ (1 + -u) ^ (n + 2) := g4
    calc _ = 1 + ((n + 2 : ℕ) : ℝ) * -u := by ring
      _ ≤ _ := this
      _ = _ := by rw [← sub_eq_add_neg]
  have hd0 : 0 < d := by linarith
  have ea : (1 + u) ^ (nt + 6) = 1 + a := by rw [ha]; ring
  rw [convBound, ← hb, ← hg, ← hd, ea, sub_le_iff_le_add, div_le_iff₀ hd0]
  have s1 : (1 + a) * (1 + g) ≤ 1 + (1.04 * p + 1.02 * g) := by nlinarith
  have s2 : (1 + a) * (1 + g) * (1 + b) ≤ 1 + (1.1 * p + 1.1 * g + 1.6 * q) := by nlinarith
  have s3 : (1 + (1.1 * p + 1.1 * g + 1.6 * q)) ≤ (2 * (p + r + q + g) + 1) * (1 - r) := by nlinarith
  exact s2.trans (s3.trans (mul_le_mul_of_nonneg_left hd1 (by positivity)))

/-- **C247.** The hypothesis can be met: the exact coefficient is one of the possible values, for every roundoff -/
theorem conv_possible {u : ℝ} (hu : 0 ≤ u) (γ : ℝ) (hγ : 0 ≤ γ) (ω : ℂ) (frames : List (Arr ℝ)) (pts : List Nat) (win : List ℝ) (n : Nat) (hn : 0 < n)
    (hwin : win.length = n) (w : Nat → ℝ) (phi : Nat → ℂ) (t f : Nat) (ht : t < frames.length) :
    FlConvCoef u γ ω n frames.length win pts (pointSeries frames) w phi t f
      ((padCorr win n frames.length t : ℂ) * (pts.map fun x => star (phi x) * (w x : ℂ) * padHat win ω n frames x t f).sum) := by
  have hfr : frames ≠ [] := by rintro rfl; simp at ht
  have hcorr : FlConvCorr u win n frames.length t (padCorr win n frames.length t) := by
    rw [← convCorr_spec win n _ t hwin hn ht]
    unfold FlConvCorr convCorr
    cases hc : Coef.corrRange n frames.length t with
    | none => rfl
    | some lu =>
      obtain ⟨lb, ub⟩ := lu
      exact ⟨_, _, _, _, _, ⟨_, sum_exact hu _, rounds_exact hu _⟩, rounds_exact hu _, rounds_exact hu _, sum_exact hu _, rounds_exact hu _, rounds_exact hu _⟩
  have hbin : ∀ x, FlConvBin u γ ω n win (pointSeries frames x) t f (padHat win ω n frames x t f) := by
    intro x
    obtain ⟨y, hy⟩ : ∃ y, y = (pointSeries frames x).map fun v => v - (pointSeries frames x).sum / (pointSeries frames x).length := ⟨_, rfl⟩
    refine ⟨y, fun τ => (Coef.convWindow 0 n y t).getD τ 0 * win.getD τ 0, ⟨_, ⟨_, sum_exact hu _, rounds_exact hu _⟩, ?_⟩, fun τ _ => rounds_exact hu _, ?_⟩
    · rw [hy, List.forall₂_map_right_iff, List.forall₂_same]
      exact fun v _ => rounds_exact hu _
    · intro Y hY
      have hc0 : FlCentred 0 (pointSeries frames x) y := ⟨_, ⟨_, sum_exact le_rfl _, rounds_exact le_rfl _⟩, by
        rw [hy, List.forall₂_map_right_iff, List.forall₂_same]
        exact fun v _ => rounds_exact le_rfl _⟩
      obtain ⟨X, hX⟩ : ∃ X : ℝ, ∀ a ∈ frames, |flat a x| ≤ X := ⟨(frames.map fun a => |flat a x|).sum, fun a ha =>
        List.single_le_sum (by
          intro b hb
          obtain ⟨a, _, rfl⟩ := List.mem_map.1 hb
          exact abs_nonneg _) _ (List.mem_map.2 ⟨a, ha, rfl⟩)⟩
      have e : padHat win ω n frames x t f = ∑ τ ∈ range n, (((Coef.convWindow 0 n y t).getD τ 0 * win.getD τ 0 : ℝ) : ℂ) * ω ^ (τ * f) := by
        unfold padHat
        refine Finset.sum_congr rfl fun τ hτ => ?_
        have := (centred_approx le_rfl frames hfr x X hX n y hc0 t τ ht (mem_range.1 hτ)).1
        simp only [add_zero, one_pow, sub_self, zero_mul, abs_nonpos_iff] at this
        rw [sub_eq_zero.1 this, mul_comm (padFluct _ _ _)]
      rw [e, sub_self, norm_zero]
      have hY0 : 0 ≤ Y := (abs_nonneg _).trans (hY 0 hn)
      positivity
  have lsum : ∀ {M : Type} [AddCommMonoid M] (F : Nat → M), (pts.map F).sum = ∑ k : Fin pts.length, F (pts.get k) := by
    intro M _ F
    rw [← List.sum_ofFn]
    congr 1
    refine List.ext_getElem (by simp) fun i i1 i2 => ?_
    simp
  refine ⟨_, fun k => padHat win ω n frames (pts.get k) t f, fun k => (w (pts.get k) : ℂ) * padHat win ω n frames (pts.get k) t f,
    (pts.map fun x => star (phi x) * (w x : ℂ) * padHat win ω n frames x t f).sum, _, hcorr, fun k => hbin _, fun k => ?_, ?_, ?_, rounds_exact hu _, rounds_exact hu _⟩
  · unfold FlScaled
    rw [Complex.re_ofReal_mul, Complex.im_ofReal_mul]
    exact ⟨rounds_exact hu _, rounds_exact hu _⟩
  · have := row_possible hu (fun k : Fin pts.length => star (phi (pts.get k))) (fun k => (w (pts.get k) : ℂ) * padHat win ω n frames (pts.get k) t f)
    rw [lsum]
    convert this using 2
    ring
  · unfold FlScaled
    rw [Complex.re_ofReal_mul, Complex.im_ofReal_mul]
    exact ⟨rounds_exact hu _, rounds_exact hu _⟩

theorem cex4_fits : Fits cexStored4 (List.range cexStored4.freq.length) cexFrames4 [4] [4, 1] where
  weights := rfl
  snaps := by
    intro a ha
    simp only [cexFrames4, List.mem_cons, List.not_mem_nil, or_false] at ha
    rcases ha with rfl | rfl | rfl <;> rfl
  axis := Or.inr ⟨rfl, rfl, by decide⟩
  modes := fun f _ => ⟨_, rfl, rfl⟩

theorem cex4_weight (x : Nat) (hx : x < size [4, 1]) : storedWeight cexStored4 x = 1 := by
  have hx' : x < 4 := hx
  interval_cases x <;> simp [storedWeight, cexStored4, npSave, size]

/-- the theorem applies: four grid points, three snapshots, two frequencies and modes, on one process … -/
example (ω : ℂ) (hω : ‖ω‖ = 1) := conv_floating cexStored4 ⟨none, none, none, 0, false⟩ [1, 1] ω hω 2 (fun _ _ _ _ => 5) cexFrames4 [4] [4, 1] ⟨Or.inl rfl, rfl⟩
  (by simp [cexStored4]) (by simp [cexStored4]) (by simp [cexStored4]) rfl (by simp) 1 (by norm_num) cex4_fits (by simp [cexFrames4]) (by simp)
  (fun x hx => by rw [cex4_weight x hx]; exact zero_le_one) (by decide)

/-- … and on two ranks -/
example (ω : ℂ) (hω : ‖ω‖ = 1) (s : (β : Type) → List (Write β) → List (Write β)) (hs : ∀ β l, (s β l).Perm l) :=
  conv_floating_ranks cexStored4 ⟨none, none, none, 0, false⟩ [1, 1] ω hω 2 (fun _ _ _ _ => 5) cexFrames4 [4] [4, 1] ⟨Or.inl rfl, rfl⟩
  (by simp [cexStored4]) (by simp [cexStored4]) (by simp [cexStored4]) rfl (by simp) 1 (by norm_num) cex4_fits (by simp [cexFrames4]) 0 (argmax_spec _ _ rfl)
  (fun x hx => by rw [cex4_weight x hx]; exact zero_le_one) 2 (by omega) (by intro r hr; interval_cases r <;> decide) s hs

/-- double precision, a hundred thousand snapshots, a million grid points, transforms accurate to `10^-12`, the Hamming window (`κ ≤ 2`): the relative error is below `10^-9` -/
example : convBound (1 / 2 ^ 53) (1 / 10 ^ 12) 2 100000 1000 1000000 ≤ 1 / 10 ^ 9 :=
  (convBound_le (by positivity) _ _ _ _ _ (by norm_num) (by norm_num) (by norm_num) (by norm_num) (by norm_num)).trans (by norm_num)

end Verif.Props
