import Verif.Model.Errors
import Mathlib.Tactic.Linarith
import Mathlib.Tactic.FieldSimp
import Mathlib.Tactic.NormNum
import Mathlib.Tactic.LinearCombination
import Mathlib.Data.List.GetD
import Mathlib.Algebra.Order.BigOperators.Group.List
import Mathlib.Analysis.MeanInequalities
/-
  C58: the error measures of /repo/pyspod/utils/errors.py.
-/
set_option linter.unusedVariables false
namespace Verif.Props
open Verif Verif.Err

/-- the entrywise absolute differences (specification) -/
noncomputable def gaps (d r : List ℝ) : List ℝ := List.zipWith (fun a b => |a - b|) d r

theorem absErr_eq (d r : List ℝ) (h : d.length = r.length) : absErr d r = some (gaps d r) := by
  simp [absErr, h, gaps]

theorem gaps_comm (d r : List ℝ) : gaps d r = gaps r d := by
  unfold gaps
  rw [List.zipWith_comm]
  congr 1
  funext a b
  exact abs_sub_comm _ _

theorem gaps_nonneg (d r : List ℝ) : ∀ x ∈ gaps d r, 0 ≤ x := by
  induction d generalizing r with
  | nil => intro x hx; simp [gaps] at hx
  | cons a d ih =>
    cases r with
    | nil => intro x hx; simp [gaps] at hx
    | cons b r =>
      intro x hx
      simp only [gaps, List.zipWith_cons_cons, List.mem_cons] at hx
      rcases hx with h | h
      · rw [h]; exact abs_nonneg _
      · exact ih r x h

theorem gaps_zero (d r : List ℝ) (h : d.length = r.length) : (∀ x ∈ gaps d r, x = 0) ↔ d = r := by
  induction d generalizing r with
  | nil => cases r with
    | nil => simp [gaps]
    | cons b r => simp at h
  | cons a d ih => cases r with
    | nil => simp at h
    | cons b r =>
      simp only [List.length_cons, Nat.add_right_cancel_iff] at h
      have := ih r h
      simp only [gaps, List.zipWith_cons_cons, List.forall_mem_cons, List.cons.injEq, abs_eq_zero,
        sub_eq_zero] at this ⊢
      rw [this]

theorem gaps_length (d r : List ℝ) (h : d.length = r.length) : (gaps d r).length = d.length := by
  simp [gaps, h]

theorem list_sum_nonneg' (l : List ℝ) (h : ∀ x ∈ l, 0 ≤ x) : 0 ≤ l.sum := List.sum_nonneg h

theorem list_sum_zero (l : List ℝ) (h : ∀ x ∈ l, 0 ≤ x) : l.sum = 0 ↔ ∀ x ∈ l, x = 0 := by
  induction l with
  | nil => simp
  | cons a l ih =>
    have h1 : 0 ≤ a := h a (by simp)
    have h2 : 0 ≤ l.sum := List.sum_nonneg fun x hx => h x (by simp [hx])
    rw [List.sum_cons, List.forall_mem_cons, ← ih fun x hx => h x (by simp [hx])]
    constructor
    · intro hs; constructor <;> linarith
    · rintro ⟨p, q⟩; linarith

theorem norm1_nonneg (v : List ℝ) : 0 ≤ norm1 v := by
  apply List.sum_nonneg; intro x hx
  obtain ⟨y, _, rfl⟩ := List.mem_map.mp hx
  exact abs_nonneg _

theorem norm1_zero (v : List ℝ) : norm1 v = 0 ↔ ∀ x ∈ v, x = 0 := by
  unfold norm1
  rw [list_sum_zero]
  · simp
  · intro x hx
    obtain ⟨y, _, rfl⟩ := List.mem_map.mp hx
    exact abs_nonneg _

theorem norm2_nonneg (v : List ℝ) : 0 ≤ norm2 v := Real.sqrt_nonneg _

theorem norm2_zero (v : List ℝ) : norm2 v = 0 ↔ ∀ x ∈ v, x = 0 := by
  unfold norm2
  have hs : ∀ x ∈ v.map (fun x => x ^ 2), 0 ≤ x := by
    intro x hx
    obtain ⟨y, _, rfl⟩ := List.mem_map.mp hx
    positivity
  rw [Real.sqrt_eq_zero (List.sum_nonneg hs), list_sum_zero _ hs]
  simp

/-! ### maximum -/

theorem foldl_max_ge (l : List ℝ) (x : ℝ) : x ≤ l.foldl max x ∧ ∀ y ∈ l, y ≤ l.foldl max x := by
  induction l generalizing x with
  | nil => simp
  | cons a l ih =>
    have := ih (max x a)
    simp only [List.foldl_cons, List.forall_mem_cons]
    exact ⟨le_trans (le_max_left _ _) this.1, le_trans (le_max_right _ _) this.1, this.2⟩

theorem foldl_max_mem (l : List ℝ) (x : ℝ) : l.foldl max x = x ∨ l.foldl max x ∈ l := by
  induction l generalizing x with
  | nil => simp
  | cons a l ih =>
    simp only [List.foldl_cons, List.mem_cons]
    rcases ih (max x a) with h | h
    · rcases le_total x a with h' | h'
      · right; left; rw [h]; exact max_eq_right h'
      · left; rw [h]; exact max_eq_left h'
    · right; right; exact h

/-- `amax` is the largest entry. -/
theorem errAmax_spec (l : List ℝ) (hl : l ≠ []) : ∃ x, amax l = some x ∧ x ∈ l ∧ ∀ y ∈ l, y ≤ x := by
  cases l with
  | nil => exact absurd rfl hl
  | cons a l =>
    refine ⟨_, rfl, ?_, ?_⟩
    · rcases foldl_max_mem l a with h | h
      · rw [h]; simp
      · simp [h]
    · have := foldl_max_ge l a
      simp only [List.forall_mem_cons]
      exact this

/-! ### C58: absolute errors -/

/-- What a user expects of an error measure `f` (specification): for fields of the same non-zero size it
    returns a number, never negative, zero exactly for equal fields, the same with the fields exchanged, and
    going through a third field is never shorter. -/
def IsErrorMeasure (f : List ℝ → List ℝ → Out) : Prop :=
  ∀ d r : List ℝ, d.length = r.length → d ≠ [] →
    ∃ x, f d r = .val x ∧ 0 ≤ x ∧ (x = 0 ↔ d = r) ∧ f r d = .val x ∧
      ∀ q, q.length = d.length → ∃ y z, f d q = .val y ∧ f q r = .val z ∧ x ≤ y + z

theorem norm1_tri (d q r : List ℝ) (h1 : q.length = d.length) (h2 : d.length = r.length) :
    norm1 (gaps d r) ≤ norm1 (gaps d q) + norm1 (gaps q r) := by
  induction d generalizing q r with
  | nil =>
    cases r with
    | nil => cases q with
      | nil => simp [gaps, norm1]
      | cons _ _ => simp at h1
    | cons _ _ => simp at h2
  | cons a d ih =>
    cases r with
    | nil => simp at h2
    | cons c r => cases q with
      | nil => simp at h1
      | cons b q =>
        have := ih q r (by simpa using h1) (by simpa using h2)
        simp only [gaps, norm1, List.zipWith_cons_cons, List.map_cons, List.sum_cons, abs_abs] at this ⊢
        have := abs_sub_le a b c
        linarith

/-- C58: the `l1` error. -/
theorem l1_error : IsErrorMeasure (fun d r => lErr d r "l1") := by
  intro d r h hd
  have hn : d.length ≠ 0 := by simpa using hd
  have hn' : (0 : ℝ) < d.length := by exact_mod_cast Nat.pos_of_ne_zero hn
  have hr : r.length ≠ 0 := by rwa [← h]
  have hval : ∀ a b : List ℝ, a.length = b.length → a.length ≠ 0 →
      lErr a b "l1" = .val (norm1 (gaps a b) / a.length) := by
    intro a b hab ha
    simp [lErr, absErr_eq a b hab, overN, ha]
  refine ⟨_, hval d r h hn, ?_, ?_, ?_, ?_⟩
  · exact div_nonneg (norm1_nonneg _) hn'.le
  · rw [div_eq_zero_iff, or_iff_left hn'.ne', norm1_zero, gaps_zero d r h]
  · show lErr r d _ = _
    rw [hval r d h.symm hr, gaps_comm, h]
  · intro q hq
    refine ⟨_, _, hval d q hq.symm hn, hval q r (by omega) (by omega), ?_⟩
    rw [hq, ← add_div]
    exact div_le_div_of_nonneg_right (norm1_tri d q r hq h) hn'.le

theorem norm2_eq (d r : List ℝ) :
    norm2 (gaps d r) = Real.sqrt ((List.zipWith (fun a b => (a - b) ^ 2) d r).sum) := by
  unfold norm2 gaps
  congr 2
  rw [List.map_zipWith]
  congr 1
  funext a b
  exact sq_abs _

theorem sqrt_tri (a b x y : ℝ) (ha : 0 ≤ a) (hb : 0 ≤ b) :
    Real.sqrt ((x + y) ^ 2 + (a + b) ^ 2) ≤ Real.sqrt (x ^ 2 + a ^ 2) + Real.sqrt (y ^ 2 + b ^ 2) := by
  have h1 : 0 ≤ x ^ 2 + a ^ 2 := by positivity
  have h2 : 0 ≤ y ^ 2 + b ^ 2 := by positivity
  apply Real.sqrt_le_iff.mpr
  refine ⟨by positivity, ?_⟩
  have e1 := Real.sq_sqrt h1
  have e2 := Real.sq_sqrt h2
  have key : x * y + a * b ≤ Real.sqrt (x ^ 2 + a ^ 2) * Real.sqrt (y ^ 2 + b ^ 2) := by
    rw [← Real.sqrt_mul h1]
    apply Real.le_sqrt_of_sq_le
    nlinarith [sq_nonneg (x * b - y * a)]
  nlinarith

theorem norm2_tri (d q r : List ℝ) (h1 : q.length = d.length) (h2 : d.length = r.length) :
    norm2 (gaps d r) ≤ norm2 (gaps d q) + norm2 (gaps q r) := by
  induction d generalizing q r with
  | nil =>
    cases r with
    | nil => cases q with
      | nil => simp [gaps, norm2]
      | cons _ _ => simp at h1
    | cons _ _ => simp at h2
  | cons a d ih =>
    cases r with
    | nil => simp at h2
    | cons c r => cases q with
      | nil => simp at h1
      | cons b q =>
        have hi := ih q r (by simpa using h1) (by simpa using h2)
        simp only [norm2_eq, List.zipWith_cons_cons, List.sum_cons] at hi ⊢
        have hnn : ∀ s t : List ℝ, 0 ≤ (List.zipWith (fun a b => (a - b) ^ 2) s t).sum := by
          intro s t
          apply List.sum_nonneg
          intro x hx
          obtain ⟨i, hi, rfl⟩ := List.getElem_of_mem hx
          simp only [List.getElem_zipWith]
          positivity
        set S := (List.zipWith (fun a b => (a - b) ^ 2) d r).sum
        set U := (List.zipWith (fun a b => (a - b) ^ 2) d q).sum
        set V := (List.zipWith (fun a b => (a - b) ^ 2) q r).sum
        have t := sqrt_tri (Real.sqrt U) (Real.sqrt V) (a - b) (b - c) (Real.sqrt_nonneg _)
          (Real.sqrt_nonneg _)
        rw [Real.sq_sqrt (hnn _ _), Real.sq_sqrt (hnn _ _)] at t
        refine le_trans (Real.sqrt_le_sqrt ?_) t
        have hS : S = Real.sqrt S ^ 2 := (Real.sq_sqrt (hnn _ _)).symm
        have : Real.sqrt S ^ 2 ≤ (Real.sqrt U + Real.sqrt V) ^ 2 :=
          pow_le_pow_left₀ (Real.sqrt_nonneg _) hi 2
        have e : (a - b + (b - c)) ^ 2 = (a - c) ^ 2 := by ring
        rw [e, hS]; linarith

/-- C58: the `l2` error. -/
theorem l2_error : IsErrorMeasure (fun d r => lErr d r "l2") := by
  intro d r h hd
  have hn : d.length ≠ 0 := by simpa using hd
  have hn' : (0 : ℝ) < d.length := by exact_mod_cast Nat.pos_of_ne_zero hn
  have hr : r.length ≠ 0 := by rwa [← h]
  have hval : ∀ a b : List ℝ, a.length = b.length → a.length ≠ 0 →
      lErr a b "l2" = .val (norm2 (gaps a b) / a.length) := by
    intro a b hab ha
    simp [lErr, absErr_eq a b hab, overN, ha]
  refine ⟨_, hval d r h hn, ?_, ?_, ?_, ?_⟩
  · exact div_nonneg (norm2_nonneg _) hn'.le
  · rw [div_eq_zero_iff, or_iff_left hn'.ne', norm2_zero, gaps_zero d r h]
  · show lErr r d _ = _
    rw [hval r d h.symm hr, gaps_comm, h]
  · intro q hq
    refine ⟨_, _, hval d q hq.symm hn, hval q r (by omega) (by omega), ?_⟩
    rw [hq, ← add_div]
    exact div_le_div_of_nonneg_right (norm2_tri d q r hq h) hn'.le

/-- C58: the `linf` error. -/
theorem linf_error : IsErrorMeasure (fun d r => lErr d r "linf") := by
  have hval : ∀ a b : List ℝ, a.length = b.length → a ≠ [] →
      ∃ x, lErr a b "linf" = .val x ∧ x ∈ gaps a b ∧ ∀ y ∈ gaps a b, y ≤ x := by
    intro a b hab ha
    have hg : gaps a b ≠ [] := by
      intro h0
      have := gaps_length a b hab
      rw [h0] at this
      exact ha (List.length_eq_zero_iff.mp this.symm)
    obtain ⟨x, h1, h2, h3⟩ := errAmax_spec (gaps a b) hg
    exact ⟨x, by simp [lErr, absErr_eq a b hab, h1], h2, h3⟩
  intro d r h hd
  obtain ⟨x, hx, hm, hge⟩ := hval d r h hd
  have hx0 : 0 ≤ x := gaps_nonneg d r x hm
  refine ⟨x, hx, hx0, ?_, ?_, ?_⟩
  · rw [← gaps_zero d r h]
    constructor
    · intro h0 y hy
      exact le_antisymm (h0 ▸ hge y hy) (gaps_nonneg d r y hy)
    · intro hall; exact hall x hm
  · rw [← hx]
    simp only [lErr, absErr_eq d r h, absErr_eq r d h.symm, gaps_comm r d]
    simp
  · intro q hq
    obtain ⟨y, hy, _, hyge⟩ := hval d q hq.symm hd
    obtain ⟨z, hz, _, hzge⟩ := hval q r (by omega) (by intro h0; rw [h0] at hq; exact hd (List.length_eq_zero_iff.mp hq.symm))
    refine ⟨y, z, hy, hz, ?_⟩
    obtain ⟨i, hi, hxi⟩ := List.getElem_of_mem hm
    have hid : i < d.length := by rw [gaps_length d r h] at hi; exact hi
    have g1 : d[i] ∈ d := List.getElem_mem hid
    have e0 : x = |d[i] - r[i]'(by omega)| := by rw [← hxi]; simp [gaps]
    have m1 : |d[i] - q[i]'(by omega)| ∈ gaps d q := by
      have : (gaps d q)[i]'(by rw [gaps_length d q hq.symm]; exact hid) = |d[i] - q[i]'(by omega)| := by
        simp [gaps]
      rw [← this]; exact List.getElem_mem _
    have m2 : |q[i]'(by omega) - r[i]'(by omega)| ∈ gaps q r := by
      have : (gaps q r)[i]'(by rw [gaps_length q r (by omega)]; omega) = |q[i]'(by omega) - r[i]'(by omega)| := by
        simp [gaps]
      rw [← this]; exact List.getElem_mem _
    have := hyge _ m1
    have := hzge _ m2
    have := abs_sub_le d[i] (q[i]'(by omega)) (r[i]'(by omega))
    rw [e0]; linarith

/-! ### C58: relative errors -/

theorem mapM_id_some (l : List ℝ) : (l.map some).mapM (fun x => x) = some l := by
  induction l with
  | nil => rfl
  | cons a l ih => simp [List.mapM_cons, ih]

theorem relErr_some (ef r : List ℝ) (h0 : ∀ b ∈ r, b ≠ 0) :
    relErr ef r = (List.zipWith (fun e b => e / b) ef r).map some := by
  induction r generalizing ef with
  | nil => simp [relErr]
  | cons b r ih => cases ef with
    | nil => simp [relErr]
    | cons e ef =>
      have h1 : b ≠ 0 := h0 b (by simp)
      have := ih ef fun x hx => h0 x (by simp [hx])
      simp only [relErr, List.zipWith_cons_cons, List.map_cons] at this ⊢
      rw [if_neg h1, this]

/-- C58 (relative part): the relative `l1` and `l2` errors with a reference that vanishes nowhere are
    non-negative, and zero exactly for equal fields.  Missing: references with zeros (not a number) and
    `linf_rel` (`linf_rel_fails`). -/
theorem rel_errors_partial (d r : List ℝ) (h : d.length = r.length) (hd : d ≠ []) (h0 : ∀ b ∈ r, b ≠ 0)
    (ty : String) (hty : ty = "l1_rel" ∨ ty = "l2_rel") :
    ∃ x, lErr d r ty = .val x ∧ 0 ≤ x ∧ (x = 0 ↔ d = r) := by
  have hn : d.length ≠ 0 := by simpa using hd
  have hn' : (0 : ℝ) < d.length := by exact_mod_cast Nat.pos_of_ne_zero hn
  have hz : (∀ x ∈ List.zipWith (fun e b => e / b) (gaps d r) r, x = 0) ↔ d = r := by
    clear hd hn hn' hty
    induction d generalizing r with
    | nil => cases r with
      | nil => simp
      | cons b r => simp at h
    | cons a d ih => cases r with
      | nil => simp at h
      | cons b r =>
        have hb : b ≠ 0 := h0 b (by simp)
        have := ih r (by simpa using h) fun x hx => h0 x (by simp [hx])
        simp only [gaps, List.zipWith_cons_cons, List.forall_mem_cons, List.cons.injEq] at this ⊢
        rw [this, div_eq_zero_iff, or_iff_left hb, abs_eq_zero, sub_eq_zero]
  rcases hty with rfl | rfl
  · refine ⟨norm1 (List.zipWith (fun e b => e / b) (gaps d r) r) / d.length, ?_, ?_, ?_⟩
    · simp only [lErr, absErr_eq d r h, relErr_some _ r h0, mapM_id_some, overN, hn]
      simp
    · exact div_nonneg (norm1_nonneg _) hn'.le
    · rw [div_eq_zero_iff, or_iff_left hn'.ne', norm1_zero, hz]
  · refine ⟨norm2 (List.zipWith (fun e b => e / b) (gaps d r) r) / d.length, ?_, ?_, ?_⟩
    · simp only [lErr, absErr_eq d r h, relErr_some _ r h0, mapM_id_some, overN, hn]
      simp
    · exact div_nonneg (norm2_nonneg _) hn'.le
    · rw [div_eq_zero_iff, or_iff_left hn'.ne', norm2_zero, hz]

/-- Exact value of `linf_rel`: the largest `|d-r|/r` with the sign of the reference. -/
theorem linf_rel_exact (d r : List ℝ) (h : d.length = r.length) (hd : d ≠ []) (h0 : ∀ b ∈ r, b ≠ 0) :
    ∃ x, lErr d r "linf_rel" = .val x ∧ x ∈ List.zipWith (fun a b => |a - b| / b) d r ∧
      ∀ y ∈ List.zipWith (fun a b => |a - b| / b) d r, y ≤ x := by
  have e : List.zipWith (fun e b => e / b) (gaps d r) r = List.zipWith (fun a b => |a - b| / b) d r := by
    clear hd h0
    induction d generalizing r with
    | nil => simp [gaps]
    | cons a d ih => cases r with
      | nil => simp [gaps]
      | cons b r =>
        have := ih r (by simpa using h)
        simp only [gaps, List.zipWith_cons_cons] at this ⊢
        rw [this]
  have hg : List.zipWith (fun a b => |a - b| / b) d r ≠ [] := by
    intro h1
    have : (List.zipWith (fun a b => |a - b| / b) d r).length = d.length := by simp [h]
    rw [h1] at this
    exact hd (List.length_eq_zero_iff.mp this.symm)
  obtain ⟨x, h1, h2, h3⟩ := errAmax_spec _ hg
  refine ⟨x, ?_, h2, h3⟩
  have e2 : relErr (gaps d r) r = (List.zipWith (fun a b => |a - b| / b) d r).map some := by
    rw [relErr_some _ r h0, e]
  simp only [lErr, absErr_eq d r h, e2, throughNorm, mapM_id_some, h1]
  simp

/-- C58, negation for the relative maximum: with a negative reference the relative `linf` error of any two
    fields that differ everywhere is negative. -/
theorem linf_rel_fails (d r : List ℝ) (h : d.length = r.length) (hd : d ≠ []) (h0 : ∀ b ∈ r, b < 0)
    (hne : ∀ i (hi : i < d.length), d[i] ≠ r[i]'(h ▸ hi)) :
    ∃ x, lErr d r "linf_rel" = .val x ∧ x < 0 := by
  obtain ⟨x, h1, h2, h3⟩ := linf_rel_exact d r h hd fun b hb => (h0 b hb).ne
  refine ⟨x, h1, ?_⟩
  obtain ⟨i, hi, hxi⟩ := List.getElem_of_mem h2
  have hid : i < d.length := by simp at hi; omega
  rw [← hxi, List.getElem_zipWith]
  apply div_neg_of_pos_of_neg
  · exact abs_pos.mpr (sub_ne_zero.mpr (hne i hid))
  · exact h0 _ (List.getElem_mem _)

example : ∃ x, lErr [1, 2] [-1, -1] "linf_rel" = .val x ∧ x < 0 :=
  linf_rel_fails [1, 2] [-1, -1] rfl (by simp) (by simp) (by
    intro i hi
    have : i = 0 ∨ i = 1 := by simp at hi; omega
    rcases this with rfl | rfl <;> norm_num)

/-- C58, second negation: a reference with a single zero makes every relative error not a number. -/
theorem rel_zero_reference_fails (d r : List ℝ) (h : d.length = r.length) (h0 : (0 : ℝ) ∈ r)
    (ty : String) (hty : ty = "l1_rel" ∨ ty = "l2_rel" ∨ ty = "linf_rel") : lErr d r ty = .notFinite := by
  have hnone : (relErr (gaps d r) r).mapM (fun x => x) = none := by
    clear hty
    induction d generalizing r with
    | nil => cases r with
      | nil => simp at h0
      | cons b r => simp at h
    | cons a d ih => cases r with
      | nil => simp at h0
      | cons b r =>
        have ih := ih
        simp only [gaps, relErr] at ih
        simp only [gaps, relErr, List.zipWith_cons_cons, List.mapM_cons]
        by_cases hb : b = 0
        · simp [hb]
        · have hr : (0 : ℝ) ∈ r := by
            rcases List.mem_cons.mp h0 with h' | h'
            · exact absurd h'.symm hb
            · exact h'
          have := ih r (by simpa using h) hr
          simp [hb, this]
  rcases hty with rfl | rfl | rfl <;> simp [lErr, absErr_eq d r h, hnone, throughNorm]

example : lErr [1, 1] [1, 0] "l2_rel" = .notFinite :=
  rel_zero_reference_fails [1, 1] [1, 0] rfl (List.mem_cons_of_mem _ (List.mem_singleton.mpr rfl)) _ (Or.inr (Or.inl rfl))

/-- An unknown norm is rejected, whatever the fields. -/
theorem lErr_unknown (d r : List ℝ) (ty : String)
    (h : ty ∉ ["l1", "l2", "linf", "l1_rel", "l2_rel", "linf_rel"]) : ∃ e, lErr d r ty = .raised e := by
  simp only [List.mem_cons, List.not_mem_nil, or_false, not_or] at h
  obtain ⟨a, b, c, d1, e, f⟩ := h
  unfold lErr
  cases absErr d r with
  | none => exact ⟨_, rfl⟩
  | some ef => exact ⟨"ValueError", by simp [a, b, c, d1, e, f]⟩

/-! ### C58: the `h1` error -/

/-- sum over space of the difference of the two fields at time `i` (specification) -/
noncomputable def gapSum (d r : List (List ℝ)) (i : Nat) : ℝ := (d.getD i []).sum - (r.getD i []).sum

/-- **C58 (degenerate input).**  No measure returns a number for empty data or for data and reference of different sizes: the maxima raise, the means
    are not finite. -/
theorem errors_degenerate (ty : String) : (∀ x, lErr [] [] ty ≠ .val x) ∧ (∀ d r : List ℝ, d.length ≠ r.length → lErr d r ty = .raised "ValueError") ∧
    lErr [] [] "linf" = .raised "ValueError" ∧ lErr [] [] "linf_rel" = .raised "ValueError" := by
  refine ⟨?_, ?_, ?_, ?_⟩
  · intro x
    unfold lErr
    simp only [absErr, relErr, List.length_nil, if_true, List.zipWith_nil_right]
    have hm : (([] : List (Option ℝ)).mapM fun x => x) = some [] := rfl
    simp only [throughNorm, hm, overN, if_true, amax]
    split_ifs <;> simp
  · intro d r h
    unfold lErr absErr
    rw [if_neg h]
  · simp [lErr, absErr, amax]
  · have hm : (([] : List (Option ℝ)).mapM fun x => x) = some [] := rfl
    simp [lErr, absErr, relErr, throughNorm, hm, amax]

theorem sum_zipWith_sub (a b : List ℝ) (h : a.length = b.length) :
    (List.zipWith (fun a b => a - b) a b).sum = a.sum - b.sum := by
  induction a generalizing b with
  | nil => cases b with
    | nil => simp
    | cons _ _ => simp at h
  | cons x a ih => cases b with
    | nil => simp at h
    | cons y b =>
      simp only [List.zipWith_cons_cons, List.sum_cons, ih b (by simpa using h)]; ring

theorem sum_zipWith_div (a b : List ℝ) (t : ℝ) (h : a.length = b.length) :
    (List.zipWith (fun a b => (a - b) / t) a b).sum = (a.sum - b.sum) / t := by
  induction a generalizing b with
  | nil => cases b with
    | nil => simp
    | cons _ _ => simp at h
  | cons x a ih => cases b with
    | nil => simp at h
    | cons y b =>
      simp only [List.zipWith_cons_cons, List.sum_cons, ih b (by simpa using h)]; ring

theorem h1Term_eq (d r : List (List ℝ)) (dt : ℝ) (hdt : dt ≠ 0) (m : Nat) (hd : ∀ s ∈ d, s.length = m)
    (hr : ∀ s ∈ r, s.length = m) (hlen : d.length ≤ r.length) (i : Nat) (hi : i < d.length) :
    h1Term d r dt i = if i = 0 then 0 else (gapSum d r i - gapSum d r (i - 1)) ^ 2 / dt := by
  unfold h1Term
  by_cases h0 : i = 0
  · simp [h0]
  · simp only [h0, if_false]
    have l : ∀ (q : List (List ℝ)), (∀ s ∈ q, s.length = m) → ∀ j, j < q.length → (q.getD j []).length = m := by
      intro q hq j hj
      rw [List.getD_eq_getElem _ _ hj]; exact hq _ (List.getElem_mem _)
    have l1 := l d hd i hi
    have l2 := l d hd (i - 1) (by omega)
    have l3 := l r hr i (by omega)
    have l4 := l r hr (i - 1) (by omega)
    rw [sum_zipWith_sub _ _ (by simp only [List.length_zipWith, l1, l2, l3, l4]), sum_zipWith_div _ _ _ (by omega),
      sum_zipWith_div _ _ _ (by omega)]
    unfold gapSum
    field_simp
    ring

theorem foldl_add_sum (l : List Nat) (f : Nat → ℝ) (a : ℝ) :
    l.foldl (fun acc i => acc + f i) a = a + (l.map f).sum := by
  induction l generalizing a with
  | nil => simp
  | cons x l ih => simp [ih]; ring

/-- Exact value of the `h1` error (uniform snapshots, positive time step): the root of the summed squares of
    the increments of the *spatial sum* of the difference. -/
theorem h1_exact (d r : List (List ℝ)) (dt : ℝ) (hdt : 0 < dt) (m : Nat) (hd : ∀ s ∈ d, s.length = m)
    (hr : ∀ s ∈ r, s.length = m) (hlen : d.length ≤ r.length) :
    hErr d r dt "h1" = .val (Real.sqrt (((List.range d.length).map fun (i : Nat) =>
      if i = 0 then 0 else (gapSum d r i - gapSum d r (i - 1)) ^ 2 / dt).sum)) := by
  have hs : (List.range d.length).foldl (fun acc i => acc + h1Term d r dt i) 0 =
      ((List.range d.length).map fun (i : Nat) =>
        if i = 0 then 0 else (gapSum d r i - gapSum d r (i - 1)) ^ 2 / dt).sum := by
    rw [foldl_add_sum, zero_add]
    congr 1
    apply List.map_congr_left
    intro i hi
    exact h1Term_eq d r dt hdt.ne' m hd hr hlen i (List.mem_range.mp hi)
  have hnn : ¬ ((List.range d.length).foldl (fun acc i => acc + h1Term d r dt i) 0) < 0 := by
    rw [hs, not_lt]
    apply List.sum_nonneg
    intro x hx
    obtain ⟨i, _, rfl⟩ := List.mem_map.mp hx
    split
    · exact le_refl _
    · positivity
  unfold hErr
  rw [if_pos rfl, if_neg (by omega), if_neg (by rintro ⟨_, h⟩; exact hdt.ne' h)]
  simp only [if_neg hnn]
  rw [hs]

/-- C58 (h1 part): the `h1` error is a non-negative number, the same with the fields exchanged, and is zero
    exactly when the spatial sum of the difference is the same at all times.  Missing: that the difference
    vanishes (`h1_fails`). -/
theorem h1_partial (d r : List (List ℝ)) (dt : ℝ) (hdt : 0 < dt) (m : Nat) (hd : ∀ s ∈ d, s.length = m)
    (hr : ∀ s ∈ r, s.length = m) (hlen : d.length = r.length) :
    ∃ x, hErr d r dt "h1" = .val x ∧ 0 ≤ x ∧ hErr r d dt "h1" = .val x ∧
      (x = 0 ↔ ∀ i, i < d.length → gapSum d r i = gapSum d r 0) := by
  refine ⟨_, h1_exact d r dt hdt m hd hr hlen.le, Real.sqrt_nonneg _, ?_, ?_⟩
  · rw [h1_exact r d dt hdt m hr hd hlen.ge, hlen]
    congr 3
    apply List.map_congr_left
    intro i _
    unfold gapSum
    split
    · rfl
    · ring
  · have hnn : ∀ x ∈ (List.range d.length).map (fun (i : Nat) =>
        if i = 0 then 0 else (gapSum d r i - gapSum d r (i - 1)) ^ 2 / dt), 0 ≤ x := by
      intro x hx
      obtain ⟨i, _, rfl⟩ := List.mem_map.mp hx
      split
      · exact le_refl _
      · positivity
    rw [Real.sqrt_eq_zero (List.sum_nonneg hnn), list_sum_zero _ hnn]
    constructor
    · intro hall i hi
      induction i with
      | zero => rfl
      | succ i ih =>
        rw [← ih (by omega)]
        have := hall _ (List.mem_map.mpr ⟨i + 1, List.mem_range.mpr hi, rfl⟩)
        rw [if_neg (by omega), div_eq_zero_iff, or_iff_left hdt.ne', Nat.add_sub_cancel] at this
        have := pow_eq_zero_iff (two_ne_zero) |>.mp this
        linarith
    · intro hall x hx
      obtain ⟨i, hi, rfl⟩ := List.mem_map.mp hx
      rw [List.mem_range] at hi
      split
      · rfl
      · rw [hall i hi, hall (i - 1) (by omega)]; simp

/-- C58, negation for `h1`: whatever the reference field (of at least two points), fields with arbitrarily
    large errors that vary in time have `h1` error zero: the errors cancel in space. -/
theorem h1_fails (r : List (List ℝ)) (dt : ℝ) (hdt : 0 < dt) (m : Nat) (hr : ∀ s ∈ r, s.length = m + 2)
    (h2 : 2 ≤ r.length) (c : ℝ) (hc : c ≠ 0) :
    ∃ d : List (List ℝ), d.length = r.length ∧ (∀ s ∈ d, s.length = m + 2) ∧ d ≠ r ∧
      hErr d r dt "h1" = .val 0 ∧
      ∀ i, i < r.length → (d.getD i []).getD 0 0 = (r.getD i []).getD 0 0 + (i + 1) * c := by
  let bump : Nat → List ℝ → List ℝ := fun i s => match s with
    | a :: b :: t => (a + (i + 1) * c) :: (b - (i + 1) * c) :: t
    | s => s
  have hb : ∀ i (s : List ℝ), s.length = m + 2 → (bump i s).length = m + 2 ∧ (bump i s).sum = s.sum ∧
      (bump i s).getD 0 0 = s.getD 0 0 + (i + 1) * c := by
    intro i s hs
    match s, hs with
    | a :: b :: t, hs =>
      refine ⟨by simpa [bump] using hs, ?_, rfl⟩
      simp only [bump, List.sum_cons]; ring
  let d := r.mapIdx bump
  have hdlen : d.length = r.length := by simp [d]
  have hget : ∀ i, (hi : i < r.length) → d.getD i [] = bump i (r.getD i []) := by
    intro i hi
    rw [List.getD_eq_getElem _ _ (by omega : i < d.length), List.getD_eq_getElem _ _ hi]
    simp [d]
  have hrl : ∀ i, i < r.length → (r.getD i []).length = m + 2 := by
    intro i hi
    rw [List.getD_eq_getElem _ _ hi]; exact hr _ (List.getElem_mem _)
  have hd : ∀ s ∈ d, s.length = m + 2 := by
    intro s hs
    obtain ⟨i, hi, rfl⟩ := List.getElem_of_mem hs
    rw [← List.getD_eq_getElem d [] hi, hget i (by omega)]
    exact (hb i _ (hrl i (by omega))).1
  have hsum : ∀ i, i < r.length → gapSum d r i = 0 := by
    intro i hi
    unfold gapSum
    rw [hget i hi, (hb i _ (hrl i hi)).2.1, sub_self]
  have hfirst : ∀ i, i < r.length → (d.getD i []).getD 0 0 = (r.getD i []).getD 0 0 + (i + 1) * c := by
    intro i hi
    rw [hget i hi]; exact (hb i _ (hrl i hi)).2.2
  refine ⟨d, hdlen, hd, ?_, ?_, hfirst⟩
  · intro e
    have := hfirst 0 (by omega)
    rw [e] at this
    simp at this
    exact hc this
  · obtain ⟨x, h1, h2', h3, h4⟩ := h1_partial d r dt hdt (m + 2) hd hr hdlen
    rw [h1, h4.mpr fun i hi => by rw [hsum i (by omega), hsum 0 (by omega)]]

example : hErr [[1, 0], [5, 2]] [[0, 1], [3, 4]] 1 "h1" = .val 0 := by
  obtain ⟨x, h1, _, _, h4⟩ := h1_partial [[1, 0], [5, 2]] [[0, 1], [3, 4]] 1 one_pos 2 (by simp) (by simp) rfl
  rw [h1, h4.mpr]
  intro i hi
  have : i = 0 ∨ i = 1 := by simp at hi; omega
  rcases this with rfl | rfl <;> norm_num [gapSum]

/-- C58 (h1 part): a single snapshot has no increments: the error is zero, whatever the reference (even none) and the time step; from two snapshots on, a
    shorter reference raises and a time step of zero gives no number. -/
theorem h1_degenerate (d r : List (List ℝ)) (dt : ℝ) :
    (d.length ≤ 1 → hErr d r dt "h1" = .val 0) ∧ (2 ≤ d.length → r.length < d.length → hErr d r dt "h1" = .raised "IndexError") ∧
      (2 ≤ d.length → d.length ≤ r.length → dt = 0 → hErr d r dt "h1" = .notFinite) := by
  refine ⟨fun h => ?_, fun h2 hr => ?_, fun h2 hr h0 => ?_⟩
  · unfold hErr
    rw [if_pos rfl, if_neg (by omega), if_neg (by omega)]
    obtain h | h : d.length = 0 ∨ d.length = 1 := by omega
    · simp [h]
    · simp [h, h1Term, List.range_succ]
  · unfold hErr
    rw [if_pos rfl, if_pos ⟨h2, hr⟩]
  · unfold hErr
    rw [if_pos rfl, if_neg (by omega), if_pos ⟨h2, h0⟩]

example : hErr [[1, 0]] [] 0 "h1" = .val 0 := (h1_degenerate _ _ _).1 (by simp)

end Verif.Props
