import Verif.Model.StreamRounding
import Verif.Props.StreamFit
import Verif.Props.VarRounding
import Verif.Props.FitRounding
/-
  C245: the sliding blocks of the streaming method in floating-point arithmetic.
-/
namespace Verif.Props
open Verif Verif.Par Verif.Round Verif.Stream Verif.SFit Verif.Spod Verif.Fit Finset

/-! ### One operation of the code each -/

/-- the update of the running mean: four roundings -/
theorem meanStep_approx {u : ℝ} (hu : 0 ≤ u) (ti : Nat) (k : Nat) (mu e x X mu' : ℝ) (hx : |x| ≤ X) (h : Approx u k mu e X) (hs : FlMeanStep u ti mu x mu') :
    Approx u (k + 4) mu' ((ti * e + x) / ((ti : ℝ) + 1)) X := by
  obtain ⟨p, s, r, h1, h2, h3, h4⟩ := hs
  have ht : (0 : ℝ) < (ti : ℝ) + 1 := by positivity
  have g1 := h.mul hu (ti : ℝ) (z := p) (by rwa [mul_comm])
  have g2 := g1.add hu (((Approx.exact (u := u) x).mono hu (Nat.zero_le (k + 1)) hx)) h2
  have g3 : Approx u 1 r (1 / ((ti : ℝ) + 1)) (1 / ((ti : ℝ) + 1)) := by
    have := (Approx.exact (u := u) (1 / ((ti : ℝ) + 1))).round hu h3
    rwa [abs_of_pos (one_div_pos.2 ht)] at this
  have g4 := g2.times hu g3 h4
  have e1 : (X * |(ti : ℝ)| + X) * (1 / ((ti : ℝ) + 1)) = X := by
    rw [abs_of_nonneg (Nat.cast_nonneg ti)]; field_simp
  have e2 : (e * ti + x) * (1 / ((ti : ℝ) + 1)) = (ti * e + x) / ((ti : ℝ) + 1) := by ring
  rw [e1, e2] at g4
  exact g4

/-- a term added to a Fourier sum -/
theorem addTerm_approx {u : ℝ} (hu : 0 ≤ u) (w d x a v : ℝ) (hw : 0 ≤ w) (A X : ℝ) (hd : |d| ≤ A) (hx : |x| ≤ X) (k : Nat) (e B : ℝ) (ha : Approx u (k + 2) a e B)
    (h : FlAddTerm u w d x a v) : Approx u (k + 4) v (e + w * d * x) (B + w * (A * X)) := by
  obtain ⟨g, p, q, h1, h2, h3, h4⟩ := h
  have g1 := (Approx.exact (u := u) (w * d)).round hu h1
  have g2 := g1.mul hu x h2
  have hb : |w * d| * |x| ≤ w * (A * X) := by
    rw [abs_mul, abs_of_nonneg hw, mul_assoc]
    exact mul_le_mul_of_nonneg_left (mul_le_mul hd hx (abs_nonneg _) ((abs_nonneg _).trans hd)) hw
  exact (ha.add hu (g2.mono hu (show 0 + 1 + 1 ≤ k + 2 by omega) hb) h3).round hu h4

/-- the contribution of the mean taken off a Fourier sum -/
theorem subTerm_approx {u : ℝ} (hu : 0 ≤ u) (w d mu em a v : ℝ) (hw : 0 ≤ w) (A X : ℝ) (hd : |d| ≤ A) (k j : Nat) (hm : Approx u k mu em X) (e B : ℝ)
    (ha : Approx u j a e B) (hj : k + 2 ≤ j) (h : FlSubTerm u w d mu a v) : Approx u (j + 1) v (e - w * d * em) (B + w * (A * X)) := by
  obtain ⟨g, p, h1, h2, h3⟩ := h
  have g1 := (Approx.exact (u := u) (w * d)).round hu h1
  have g2 := g1.times hu hm h2
  have hb : |w * d| * X ≤ w * (A * X) := by
    rw [abs_mul, abs_of_nonneg hw, mul_assoc]
    exact mul_le_mul_of_nonneg_left (mul_le_mul_of_nonneg_right hd hm.nonneg) hw
  exact ha.sub hu (g2.mono hu (show 0 + 1 + k + 1 ≤ j by omega) hb) h3

/-! ### The loop, beside the exact one -/

/-- one slot of the computed and of the exact loop -/
def SumNear (u : ℝ) (A X : ℝ) (w : Nat → ℝ) (t : Int) (a e : ℂ) : Prop :=
  Approx u (2 * t.toNat + 2) a.re e.re ((∑ i ∈ range t.toNat, w i) * (A * X)) ∧ Approx u (2 * t.toNat + 2) a.im e.im ((∑ i ∈ range t.toNat, w i) * (A * X))

structure SlotsNear (u : ℝ) (A X : ℝ) (w : Nat → ℝ) (n : Nat) (s e : Slots ℂ) : Prop where
  t : s.t = e.t
  lt : ∀ i, s.t i < n
  sum : ∀ j, SumNear u A X w (s.t j) (s.sum j) (e.sum j)

/-- completed sums -/
def OutNear (u : ℝ) (A X : ℝ) (w : Nat → ℝ) (n : Nat) (a e : Nat × ℂ) : Prop := a.1 = e.1 ∧ SumNear u A X w n a.2 e.2

theorem sumNear_zero {u : ℝ} (hu : 0 ≤ u) {A X : ℝ} (hA : 0 ≤ A) (hX : 0 ≤ X) {w : Nat → ℝ} (hw : ∀ i, 0 ≤ w i) (t : Int) : SumNear u A X w t 0 0 := by
  have : Approx u (2 * t.toNat + 2) 0 0 ((∑ i ∈ range t.toNat, w i) * (A * X)) := by
    have h0 : 0 ≤ (∑ i ∈ range t.toNat, w i) * (A * X) := mul_nonneg (Finset.sum_nonneg fun i _ => hw i) (mul_nonneg hA hX)
    have := (Approx.exact (u := u) 0).mono hu (Nat.zero_le (2 * t.toNat + 2)) (show |(0 : ℝ)| ≤ (∑ i ∈ range t.toNat, w i) * (A * X) by rw [abs_zero]; exact h0)
    exact this
  exact ⟨this, this⟩

theorem slotStep_near {u : ℝ} (hu : 0 ≤ u) (P n dn : Nat) (w : Nat → ℝ) (hw : ∀ i, 0 ≤ w i) (dft : Nat → ℂ) (A X : ℝ) (hA : ∀ t < n, |(dft t).re| ≤ A ∧ |(dft t).im| ≤ A)
    (hA0 : 0 ≤ A) (x : ℝ) (hx : |x| ≤ X) (st st' : Slots ℂ × List (Nat × ℂ)) (e : Slots ℂ × List (Nat × ℂ)) (hn : SlotsNear u A X w n st.1 e.1)
    (ho : List.Forall₂ (OutNear u A X w n) st.2 e.2) (j : Nat) (hj : j < P) (h : FlSlotStep u P n dn w dft x st j st') :
    let e' := slotStep P n dn (fun t => (w t : ℂ)) dft (x : ℂ) e j
    SlotsNear u A X w n st'.1 e'.1 ∧ List.Forall₂ (OutNear u A X w n) st'.2 e'.2 := by
  obtain ⟨sum1, h1, h2⟩ := h
  have hX0 : 0 ≤ X := (abs_nonneg _).trans hx
  set tj := st.1.t j with htj
  have htj' : e.1.t j = tj := by rw [← hn.t]
  -- the sums after the addition
  have key : ∀ i, SumNear u A X w (if i = j then tj + 1 else st.1.t i) (sum1 i)
      ((if tj > -1 then Function.update e.1.sum j (e.1.sum j + (w tj.toNat : ℂ) * dft tj.toNat * (x : ℂ)) else e.1.sum) i) := by
    intro i
    have hi := hn.sum i
    by_cases hp : tj > -1
    · rw [if_pos hp] at h1
      obtain ⟨v, v1, v2, rfl⟩ := h1
      rw [if_pos hp]
      by_cases hij : i = j
      · subst hij
        rw [if_pos rfl, Function.update_self, Function.update_self]
        have hlt : tj.toNat < n := by have := hn.lt i; omega
        have et : (tj + 1).toNat = tj.toNat + 1 := by omega
        unfold SumNear
        rw [et, Finset.sum_range_succ]
        have hd := hA _ hlt
        have r1 := addTerm_approx hu _ _ x _ _ (hw _) A X hd.1 hx (2 * tj.toNat) _ _ hi.1 v1
        have r2 := addTerm_approx hu _ _ x _ _ (hw _) A X hd.2 hx (2 * tj.toNat) _ _ hi.2 v2
        rw [add_mul]
        refine ⟨?_, ?_⟩
        · have : (e.1.sum i + (w tj.toNat : ℂ) * dft tj.toNat * (x : ℂ)).re = (e.1.sum i).re + w tj.toNat * (dft tj.toNat).re * x := by simp
          rw [this]; exact r1
        · have : (e.1.sum i + (w tj.toNat : ℂ) * dft tj.toNat * (x : ℂ)).im = (e.1.sum i).im + w tj.toNat * (dft tj.toNat).im * x := by simp
          rw [this]; exact r2
      · rw [if_neg hij, Function.update_of_ne hij, Function.update_of_ne hij]; exact hi
    · rw [if_neg hp] at h1
      rw [if_neg hp, h1]
      by_cases hij : i = j
      · subst hij
        rw [if_pos rfl]
        have et : (tj + 1).toNat = tj.toNat := by omega
        unfold SumNear
        rw [et]; exact hi
      · rw [if_neg hij]; exact hi
  intro e'
  have he' : e' = slotStep P n dn (fun t => (w t : ℂ)) dft (x : ℂ) e j := rfl
  unfold slotStep at he'
  simp only [htj'] at he'
  by_cases hc : tj = (n : Int) - 1
  · rw [if_pos hc] at h2 he'
    rw [h2, he']
    refine ⟨⟨by simp only [hn.t], fun i => ?_, fun i => ?_⟩, ?_⟩
    · by_cases hij : i = j
      · subst hij
        simp only [Function.update_self]
        have := minT_ge (t := st.1.t) hj
        have := hn.lt i
        omega
      · simp only [Function.update_of_ne hij]; exact hn.lt i
    · by_cases hij : i = j
      · subst hij
        simp only [Function.update_self]
        exact sumNear_zero hu hA0 hX0 hw _
      · simp only [Function.update_of_ne hij]
        have := key i
        rw [if_neg hij] at this
        exact this
    · refine List.rel_append ho (.cons ⟨rfl, ?_⟩ .nil)
      have := key j
      rw [if_pos rfl, hc, show (n : Int) - 1 + 1 = n by ring] at this
      rw [← hc] at this
      exact this
  · rw [if_neg hc] at h2 he'
    rw [h2, he']
    refine ⟨⟨by simp only [hn.t], fun i => ?_, fun i => ?_⟩, ho⟩
    · by_cases hij : i = j
      · subst hij
        simp only [Function.update_self]
        have := hn.lt i
        omega
      · simp only [Function.update_of_ne hij]; exact hn.lt i
    have := key i
    by_cases hij : i = j
    · subst hij
      simp only [Function.update_self]
      rw [if_pos rfl] at this
      exact this
    · simp only [Function.update_of_ne hij]
      rw [if_neg hij] at this
      exact this

theorem slotLoop_near {u : ℝ} (hu : 0 ≤ u) (P n dn : Nat) (w : Nat → ℝ) (hw : ∀ i, 0 ≤ w i) (dft : Nat → ℂ) (A X : ℝ) (hA : ∀ t < n, |(dft t).re| ≤ A ∧ |(dft t).im| ≤ A)
    (hA0 : 0 ≤ A) (x : ℝ) (hx : |x| ≤ X) (l : List Nat) (hl : ∀ j ∈ l, j < P) (st st' : Slots ℂ × List (Nat × ℂ)) (e : Slots ℂ × List (Nat × ℂ)) (hn : SlotsNear u A X w n st.1 e.1)
    (ho : List.Forall₂ (OutNear u A X w n) st.2 e.2) (h : Loop (FlSlotStep u P n dn w dft x) st l st') :
    let e' := l.foldl (slotStep P n dn (fun t => (w t : ℂ)) dft (x : ℂ)) e
    SlotsNear u A X w n st'.1 e'.1 ∧ List.Forall₂ (OutNear u A X w n) st'.2 e'.2 := by
  induction h generalizing e with
  | nil s => exact ⟨hn, ho⟩
  | cons h1 h2 ih =>
    obtain ⟨a, b⟩ := slotStep_near hu P n dn w hw dft A X hA hA0 x hx _ _ e hn ho _ (hl _ (by simp)) h1
    exact ih (fun j hj => hl j (by simp [hj])) _ a b

/-- the mean taken off a completed sum -/
theorem subLoop_near {u : ℝ} (hu : 0 ≤ u) (w : Nat → ℝ) (hw : ∀ i, 0 ≤ w i) (dft : Nat → ℂ) (A X : ℝ) (k : Nat) (mu em : ℝ) (hm : Approx u k mu em X) (l : List Nat)
    (hA : ∀ t ∈ l, |(dft t).re| ≤ A ∧ |(dft t).im| ≤ A) (j : Nat) (hj : k + 2 ≤ j) (a y e : ℂ) (B : ℝ) (h1 : Approx u j a.re e.re B) (h2 : Approx u j a.im e.im B)
    (h : Loop (fun a row a' => FlSubTerm u (w row) (dft row).re mu a.re a'.re ∧ FlSubTerm u (w row) (dft row).im mu a.im a'.im) a l y) :
    let Y := l.foldl (fun (b : ℂ) row => b - ((w row : ℝ) : ℂ) * dft row * (em : ℂ)) e
    Approx u (j + l.length) y.re Y.re (B + (l.map w).sum * (A * X)) ∧ Approx u (j + l.length) y.im Y.im (B + (l.map w).sum * (A * X)) := by
  induction h generalizing e B j with
  | nil s => simpa using ⟨h1, h2⟩
  | @cons s s' s'' row l g1 g2 ih =>
    have hd := hA row (by simp)
    have r1 := subTerm_approx hu _ _ _ _ _ _ (hw row) A X hd.1 k j hm _ _ h1 hj g1.1
    have r2 := subTerm_approx hu _ _ _ _ _ _ (hw row) A X hd.2 k j hm _ _ h2 hj g1.2
    have := ih (fun t ht => hA t (by simp [ht])) (j + 1) (by omega) (e - ((w row : ℝ) : ℂ) * dft row * (em : ℂ)) _ (by
      have : (e - ((w row : ℝ) : ℂ) * dft row * (em : ℂ)).re = e.re - w row * (dft row).re * em := by simp
      rw [this]; exact r1) (by
      have : (e - ((w row : ℝ) : ℂ) * dft row * (em : ℂ)).im = e.im - w row * (dft row).im * em := by simp
      rw [this]; exact r2)
    simp only [List.foldl_cons, List.length_cons, List.map_cons, List.sum_cons]
    rw [show j + (l.length + 1) = j + 1 + l.length by omega, add_mul, ← add_assoc]
    exact this

/-- what is handed to the basis update: the same time and slots, and the value before and after the last scaling -/
def BlockNear (u : ℝ) (B : ℝ) (n : Nat) (sc : ℝ) (ww : ℂ) (a e : Nat × List Nat × ℂ) : Prop :=
  a.1 = e.1 ∧ a.2.1 = e.2.1 ∧ ∃ y Y : ℂ, Approx u (4 * (a.1 + 1) + 3 * n + 4) y.re Y.re B ∧ Approx u (4 * (a.1 + 1) + 3 * n + 4) y.im Y.im B ∧
    Rounds u (sc * y.re) a.2.2.re ∧ Rounds u (sc * y.im) a.2.2.im ∧ e.2.2 = ww / n * Y

structure StreamNear (u : ℝ) (A X : ℝ) (w : Nat → ℝ) (n : Nat) (sc : ℝ) (ww : ℂ) (s e : St ℂ) : Prop where
  count : s.count = e.count
  mu : ∃ m : ℝ, e.mu = (m : ℂ) ∧ Approx u (4 * s.count) s.mu.re m X
  slots : SlotsNear u A X w n s.slots e.slots
  out : List.Forall₂ (BlockNear u (2 * (∑ i ∈ range n, w i) * (A * X)) n sc ww) s.out e.out

theorem step_near {u : ℝ} (hu : 0 ≤ u) (P n dn : Nat) (w : Nat → ℝ) (hw : ∀ i, 0 ≤ w i) (dft : Nat → ℂ) (A X : ℝ) (hA : ∀ t < n, |(dft t).re| ≤ A ∧ |(dft t).im| ≤ A)
    (hA0 : 0 ≤ A) (sc : ℝ) (ww : ℂ) (x : ℝ) (hx : |x| ≤ X) (s s' e : St ℂ) (hn : StreamNear u A X w n sc ww s e) (h : FlStep u P n dn w dft sc s x s') :
    StreamNear u A X w n sc ww s' (step P n dn (fun t => (w t : ℂ)) dft ww e (x : ℂ)) := by
  obtain ⟨c1, c2, c3, o, c4, c5⟩ := h
  obtain ⟨m, m1, m2⟩ := hn.mu
  have hm := meanStep_approx hu _ _ _ _ x X _ hx m2 c2
  set em : ℝ := (s.count * m + x) / ((s.count : ℝ) + 1) with hem
  have hmu : ((e.count : ℂ) * e.mu + (x : ℂ)) / ((e.count : ℂ) + 1) = (em : ℂ) := by
    rw [hem, m1, ← hn.count]; push_cast; rfl
  obtain ⟨l1, l2⟩ := slotLoop_near hu P n dn w hw dft A X hA hA0 x hx (List.range P) (fun j hj => List.mem_range.1 hj) _ _ (e.slots, []) hn.slots .nil c4
  have hc4 : 4 * s'.count = 4 * s.count + 4 := by rw [c1]; ring
  refine ⟨by simp only [step]; rw [c1, hn.count], ⟨em, by simp only [step]; exact hmu, by rw [hc4]; exact hm⟩, l1, ?_⟩
  simp only [step, slotLoop, hmu]
  generalize (List.foldl (slotStep P n dn (fun t => (w t : ℂ)) dft (x : ℂ)) (e.slots, []) (List.range P)) = r at l1 l2
  have hmap : o.map (·.1) = r.2.map (·.1) := by
    have : ∀ (a b : List (Nat × ℂ)), List.Forall₂ (OutNear u A X w n) a b → a.map (·.1) = b.map (·.1) := by
      intro a b hab
      induction hab with
      | nil => rfl
      | cons g _ ih => simp only [List.map_cons, ih, g.1]
    exact this _ _ l2
  have hlast : ∀ (a b : List (Nat × ℂ)), List.Forall₂ (OutNear u A X w n) a b →
      (a.getLast? = none ∧ b.getLast? = none) ∨ ∃ p q, a.getLast? = some p ∧ b.getLast? = some q ∧ OutNear u A X w n p q := by
    intro a b hab
    induction hab with
    | nil => left; simp
    | @cons p q l l' g gs ih =>
      right
      rcases ih with ⟨i1, i2⟩ | ⟨p', q', i1, i2, i3⟩
      · rw [List.getLast?_eq_none_iff] at i1 i2
        subst i1; subst i2
        exact ⟨p, q, rfl, rfl, g⟩
      · exact ⟨p', q', by rw [List.getLast?_cons, i1]; rfl, by rw [List.getLast?_cons, i2]; rfl, i3⟩
  rcases hlast o r.2 l2 with ⟨i1, i2⟩ | ⟨p, q, i1, i2, i3⟩
  · rw [i1] at c5
    rw [i2]
    simp only at c5 ⊢
    rw [c5]; exact hn.out
  · rw [i1] at c5
    rw [i2]
    obtain ⟨y, z, d1, d2, d3, d4⟩ := c5
    simp only
    rw [d4]
    refine List.rel_append hn.out (.cons ⟨hn.count, hmap, y, _, ?_, ?_, d2, d3, rfl⟩ .nil)
    all_goals
      have hk : (n : Int).toNat = n := by omega
      obtain ⟨k1, k2⟩ := i3.2
      rw [hk] at k1 k2
      have := subLoop_near hu w hw dft A X (4 * s.count + 4) s'.mu.re em hm (List.range n) (fun t ht => hA t (List.mem_range.1 ht)) (4 * (s.count + 1) + 2 * n + 4) (by omega)
        p.2 y q.2 _ (k1.mono hu (by omega) (le_refl _)) (k2.mono hu (by omega) (le_refl _)) d1
      rw [List.length_range, list_range_sum, show 4 * (s.count + 1) + 2 * n + 4 + n = 4 * (s.count + 1) + 3 * n + 4 by ring, ← two_mul, ← mul_assoc] at this
    · exact this.1
    · exact this.2

theorem stream_near {u : ℝ} (hu : 0 ≤ u) (P n dn : Nat) (w : Nat → ℝ) (hw : ∀ i, 0 ≤ w i) (dft : Nat → ℂ) (A X : ℝ) (hA : ∀ t < n, |(dft t).re| ≤ A ∧ |(dft t).im| ≤ A)
    (hA0 : 0 ≤ A) (sc : ℝ) (ww : ℂ) (l : List ℝ) (hx : ∀ x ∈ l, |x| ≤ X) (s s' e : St ℂ) (hn : StreamNear u A X w n sc ww s e)
    (h : Loop (FlStep u P n dn w dft sc) s l s') :
    StreamNear u A X w n sc ww s' ((l.map Complex.ofReal).foldl (step P n dn (fun t => (w t : ℂ)) dft ww) e) := by
  induction h generalizing e with
  | nil s => exact hn
  | cons h1 h2 ih =>
    exact ih (fun x hx' => hx x (by simp [hx'])) _ (step_near hu P n dn w hw dft A X hA hA0 sc ww _ (hx _ (by simp)) _ _ e hn h1)

/-- the relative error of a block, for `nt` snapshots, blocks of `n`, unit roundoff `u` and a Fourier matrix of error `γ` -/
noncomputable def streamBound (u γ : ℝ) (nt n : Nat) : ℝ :=
  (1 + u) ^ 3 * (1 + γ + 2 * (1 + γ) * ((1 + u) ^ (4 * nt + 3 * n + 4) - 1)) / (2 - (1 + u) ^ n) - 1

/-- the last scaling of a value `d` near `H`, by a number near `1 / S` -/
theorem scaled_near {u : ℝ} (hu : 0 ≤ u) (sc S η B T : ℝ) (hS : 0 < S) (hs : |sc * S - 1| ≤ η) (H d q : ℂ) (hH : ‖H‖ ≤ B * S) (hd : ‖d - H‖ ≤ B * S * T)
    (h5 : Rounds u (sc * d.re) q.re) (h6 : Rounds u (sc * d.im) q.im) : ‖q - H / S‖ ≤ B * ((1 + u) * ((1 + η) * (1 + T)) - 1) := by
  have hη0 : 0 ≤ η := (abs_nonneg _).trans hs
  have hS0 : (S : ℂ) ≠ 0 := by exact_mod_cast hS.ne'
  have hsd : ‖(sc : ℂ) * d - H / S‖ ≤ B * ((1 + η) * (1 + T) - 1) := by
    have e2 : (sc : ℂ) * d - H / S = (((sc * S : ℝ) : ℂ) * (d - H) + ((sc * S - 1 : ℝ) : ℂ) * H) / S := by
      push_cast
      field_simp
      ring
    rw [e2, norm_div, Complex.norm_real, Real.norm_of_nonneg hS.le, div_le_iff₀ hS]
    refine (norm_add_le _ _).trans ?_
    rw [norm_mul, norm_mul, Complex.norm_real, Complex.norm_real, Real.norm_eq_abs, Real.norm_eq_abs]
    have hsS : |sc * S| ≤ 1 + η := by
      have := abs_le.1 hs
      rw [abs_le]
      constructor <;> linarith [this.1, this.2]
    have k1 : |sc * S| * ‖d - H‖ ≤ (1 + η) * (B * S * T) := mul_le_mul hsS hd (norm_nonneg _) (by linarith)
    have k2 : |sc * S - 1| * ‖H‖ ≤ η * (B * S) := mul_le_mul hs hH (norm_nonneg _) hη0
    linarith
  have hHS : ‖H / (S : ℂ)‖ ≤ B := by
    rw [norm_div, Complex.norm_real, Real.norm_of_nonneg hS.le, div_le_iff₀ hS]
    exact hH
  have hq : ‖q - (sc : ℂ) * d‖ ≤ u * ‖(sc : ℂ) * d‖ := by
    rw [Rounds] at h5 h6
    have r1 : (q - (sc : ℂ) * d).re = q.re - sc * d.re := by simp
    have r2 : (q - (sc : ℂ) * d).im = q.im - sc * d.im := by simp
    have r3 : ((sc : ℂ) * d).re = sc * d.re := by simp
    have r4 : ((sc : ℂ) * d).im = sc * d.im := by simp
    rw [complex_norm_sqrt, complex_norm_sqrt, r1, r2, r3, r4]
    have : u = Real.sqrt (u ^ 2) := (Real.sqrt_sq hu).symm
    rw [this, ← Real.sqrt_mul (sq_nonneg u)]
    refine Real.sqrt_le_sqrt ?_
    have q1 := pow_le_pow_left₀ (abs_nonneg _) h5 2
    have q2 := pow_le_pow_left₀ (abs_nonneg _) h6 2
    rw [sq_abs, mul_pow, sq_abs] at q1 q2
    linarith
  have hsn : ‖(sc : ℂ) * d‖ ≤ B * ((1 + η) * (1 + T)) := by
    have := norm_sub_norm_le ((sc : ℂ) * d) (H / S)
    linarith
  have hfin := norm_sub_le_norm_sub_add_norm_sub q ((sc : ℂ) * d) (H / S)
  nlinarith [mul_le_mul_of_nonneg_left hsn hu]

theorem dftMat_norm (ω : ℂ) (hω : ‖ω‖ = 1) (isreal : Bool) (nf f : Nat) : ∃ a : ℝ, (a = 1 ∨ a = 2) ∧ ∀ t, ‖dftMat ω isreal nf f t‖ = a := by
  unfold dftMat
  split
  · exact ⟨2, Or.inr rfl, fun t => by rw [norm_mul, norm_pow, hω]; simp⟩
  · exact ⟨1, Or.inl rfl, fun t => by rw [norm_pow, hω]; simp⟩

theorem stream_mu_near (c : Cfg) (u : ℝ) (w : Nat → ℝ) (dft : Nat → ℂ) (sc A X : ℝ) (vals : List ℝ) (hv : vals ≠ []) (s : St ℂ)
    (hnear : StreamNear u A X w c.nDft sc ((winWeight c.win : ℝ) : ℂ) s ((vals.map Complex.ofReal).foldl
      (step (nPar c.nDft (sep c)) c.nDft (sep c) (fun t => (w t : ℂ)) dft ((winWeight c.win : ℝ) : ℂ)) (initSt (sep c)))) :
    |s.mu.re - vals.sum / vals.length| ≤ ((1 + u) ^ (4 * vals.length) - 1) * X := by
  have hmean := stream_mean (nPar c.nDft (sep c)) c.nDft (sep c) (fun t => (w t : ℂ)) dft ((winWeight c.win : ℝ) : ℂ) (vals.map Complex.ofReal) (by simpa using hv)
  obtain ⟨m, m1, m2⟩ := hnear.mu
  rw [hmean, List.length_map] at m1
  have hm : m = vals.sum / vals.length := by
    have : ((vals.sum / vals.length : ℝ) : ℂ) = (m : ℂ) := by
      rw [← m1]
      push_cast
      congr 1
      exact map_list_sum Complex.ofRealHom vals
    exact_mod_cast this.symm
  have hcount : s.count = vals.length := by
    rw [hnear.count]
    have : ∀ (l : List ℂ) (e : St ℂ), (l.foldl (step (nPar c.nDft (sep c)) c.nDft (sep c) (fun t => (w t : ℂ)) dft ((winWeight c.win : ℝ) : ℂ)) e).count = e.count + l.length := by
      intro l
      induction l with
      | nil => intro e; rfl
      | cons x l ih => intro e; rw [List.foldl_cons, ih, List.length_cons]; simp only [step]; omega
    rw [this, List.length_map]
    simp [initSt]
  rw [← hm, ← hcount]
  exact m2.1

set_option maxHeartbeats 1000000 in
/-- **C245.** The streaming method in floating-point arithmetic with unit roundoff `u`, at a grid point whose values `vals` are of magnitude at most `X`: the Fourier matrix has
    entries with an error of at most `γ`; running mean, Fourier sums of the sliding blocks, subtraction of the mean and scaling are rounded.  The blocks handed to the basis
    update are as many as in exact arithmetic, each at the same time, and differ from the windowed transform of their segment minus the mean of what was read by at most `4 X streamBound`; the
    running mean differs from the mean by at most `((1 + u)^(4 nt) - 1) X`. -/
theorem stream_floating (c : Cfg) (ω : ℂ) (hω : ‖ω‖ = 1) (hn : 0 < c.nDft) (hd : 0 < sep c) (hwin : c.win.length = c.nDft) (hw : ∀ x ∈ c.win, 0 ≤ x) (hpos : 0 < c.win.sum)
    (u : ℝ) (hu : 0 ≤ u) (hlt : (1 + u) ^ c.nDft < 2) (γ : ℝ) (f : Nat) (vals : List ℝ) (X : ℝ) (hX : ∀ x ∈ vals, |x| ≤ X) (s : St ℂ) (h : FlStream u γ c ω f vals s) :
    s.out.length = nUpdates c ω vals.length ∧
    (∀ m < nUpdates c ω vals.length, ∃ z, s.out[m]? = some (streamStart (nPar c.nDft (sep c)) (sep c) m + c.nDft - 1, [m % nPar c.nDft (sep c)], z) ∧
      ‖z - specBlock c ω f m vals‖ ≤ 4 * X * streamBound u γ vals.length c.nDft) ∧
    (vals ≠ [] → |s.mu.re - vals.sum / vals.length| ≤ ((1 + u) ^ (4 * vals.length) - 1) * X) := by
  obtain ⟨dft, sc, g1, g2, g3⟩ := h
  obtain ⟨a, ha, hda⟩ := dftMat_norm ω hω c.isreal (nFreq c.nDft c.isreal c.full) f
  have ha1 : 1 ≤ a ∧ a ≤ 2 := by rcases ha with rfl | rfl <;> norm_num
  have hγ : 0 ≤ γ := (norm_nonneg _).trans (g1 0 hn)
  have hu1 : u ≤ 1 := by
    have : 1 + u ≤ (1 + u) ^ c.nDft := le_self_pow₀ (by linarith) hn.ne'
    linarith
  set w : Nat → ℝ := fun t => c.win.getD t 0 with hwdef
  have hw0 : ∀ i, 0 ≤ w i := fun i => by
    rw [hwdef]
    simp only [List.getD_eq_getElem?_getD]
    cases hc : c.win[i]? with
    | none => simp
    | some b => simpa using hw b (List.mem_of_getElem? hc)
  have hA : ∀ t < c.nDft, ‖dft t‖ ≤ a + γ := fun t ht => by
    have := norm_sub_norm_le (dft t) (dftMat ω c.isreal (nFreq c.nDft c.isreal c.full) f t)
    have := g1 t ht
    rw [hda t] at *
    linarith
  set S := c.win.sum with hS
  have hsum : ∑ t ∈ range c.nDft, w t = S := by
    rw [hS, ← hwin, ← list_range_sum]
    congr 1
    refine List.ext_getElem (by simp) fun i h1 h2 => ?_
    simp [hwdef, List.getElem?_eq_getElem h2]
  by_cases hv : vals = []
  · subst hv
    have hs : s = initSt (sep c) := by cases g3; rfl
    have h0 : nUpdates c ω ([] : List ℝ).length = 0 := by
      by_contra hc
      have := (nUpdates_spec c ω hn hd ([] : List ℝ).length 0).1 (by omega)
      rw [List.length_nil] at this
      omega
    refine ⟨by rw [h0, hs]; rfl, fun m hm => by omega, fun hc => absurd rfl hc⟩
  have hX0 : 0 ≤ X := by
    have h0 : 0 < vals.length := List.length_pos_iff.2 hv
    exact (abs_nonneg _).trans (hX _ (List.getElem_mem h0))
  have hnear := stream_near hu _ c.nDft (sep c) w hw0 dft (a + γ) X (fun t ht => ⟨(Complex.abs_re_le_norm _).trans (hA t ht), (Complex.abs_im_le_norm _).trans (hA t ht)⟩)
    (by linarith) sc ((winWeight c.win : ℝ) : ℂ) vals hX (initSt (sep c)) s (initSt (sep c)) ⟨rfl, ⟨0, by simp [initSt], by
      simp only [initSt, Complex.zero_re]; exact ⟨by simp, by simpa using hX0⟩⟩, ⟨rfl, fun i => by
      simp only [initSt, initSlots]
      have : (0 : Int) ≤ (i : Int) * (sep c : Int) := by positivity
      omega, fun i => by
      simp only [initSt, initSlots]; exact sumNear_zero hu (by linarith) hX0 hw0 _⟩, .nil⟩ g3
  obtain ⟨M, M1, M2⟩ := stream_exact hn hd (fun t => (w t : ℂ)) dft ((winWeight c.win : ℝ) : ℂ) (vals.map Complex.ofReal)
  rw [List.length_map] at M1
  have hM : nUpdates c ω vals.length = M := by
    refine le_antisymm (not_lt.1 fun hc => ?_) (not_lt.1 fun hc => ?_)
    · have := (M1 M).2 ((nUpdates_spec c ω hn hd vals.length M).1 hc)
      omega
    · have := (nUpdates_spec c ω hn hd vals.length _).2 ((M1 _).1 hc)
      omega
  rw [hM]
  have hout := hnear.out
  rw [show (vals.map Complex.ofReal).foldl (step (nPar c.nDft (sep c)) c.nDft (sep c) (fun t => (w t : ℂ)) dft ((winWeight c.win : ℝ) : ℂ)) (initSt (sep c)) =
    run c.nDft (sep c) (fun t => (w t : ℂ)) dft ((winWeight c.win : ℝ) : ℂ) (vals.map Complex.ofReal) from rfl, M2] at hout
  have hlen := hout.length_eq
  rw [List.length_map, List.length_range] at hlen
  refine ⟨hlen, fun m hm => ?_, fun _ => ?_⟩
  · have hm' : m < s.out.length := by omega
    have hB := List.forall₂_iff_get.1 hout |>.2 m hm' (by rw [List.length_map, List.length_range]; exact hm)
    simp only [List.get_eq_getElem, List.getElem_map, List.getElem_range] at hB
    obtain ⟨b1, b2, y, Y, b3, b4, b5, b6, b7⟩ := hB
    simp only at b1 b2 b7
    have hm1 := (M1 m).1 hm
    set N := streamStart (nPar c.nDft (sep c)) (sep c) m with hN
    refine ⟨s.out[m].2.2, ?_, ?_⟩
    · rw [List.getElem?_eq_getElem hm', ← b1, ← b2]
    -- the exact block
    set μ : ℝ := (∑ i ∈ range (N + c.nDft), vals.getD i 0) / ((N + c.nDft : Nat) : ℝ) with hμ
    have hval : ∀ i, |vals.getD i 0| ≤ X := fun i => by
      rw [List.getD_eq_getElem?_getD]
      cases hc : vals[i]? with
      | none => simpa using hX0
      | some b => simpa using hX b (List.mem_of_getElem? hc)
    have hN0 : (0 : ℝ) < ((N + c.nDft : Nat) : ℝ) := by exact_mod_cast (by omega : 0 < N + c.nDft)
    have hμX : |μ| ≤ X := by
      rw [hμ, abs_div, abs_of_pos hN0, div_le_iff₀ hN0]
      refine (Finset.abs_sum_le_sum_abs _ _).trans ((Finset.sum_le_sum fun i _ => hval i).trans ?_)
      rw [Finset.sum_const, card_range, nsmul_eq_mul, mul_comm]
    set v : Nat → ℝ := fun t => vals.getD (N + t) 0 - μ with hvdef
    have hv2 : ∀ t, |v t| ≤ 2 * X := fun t => (abs_sub _ _).trans (by linarith [hval (N + t)])
    have hS0 : (S : ℂ) ≠ 0 := by exact_mod_cast hpos.ne'
    have hscale : ((winWeight c.win : ℝ) : ℂ) / (c.nDft : ℂ) = 1 / S := by
      have hn0 : (c.nDft : ℝ) ≠ 0 := by exact_mod_cast hn.ne'
      have hr : winWeight c.win / (c.nDft : ℝ) = 1 / S := by
        rw [winWeight, hwin, ← hS]
        field_simp
      rw [← Complex.ofReal_natCast, ← Complex.ofReal_div, hr]
      push_cast
      rfl
    set D := dftMat ω c.isreal (nFreq c.nDft c.isreal c.full) f with hD
    set H : ℂ := ∑ t ∈ range c.nDft, (w t : ℂ) * D t * (v t : ℂ) with hH
    have hspec : specBlock c ω f m vals = H / S := by
      unfold specBlock
      simp only
      rw [hscale, hH, div_eq_inv_mul (∑ t ∈ range c.nDft, (w t : ℂ) * D t * (v t : ℂ)), one_div]
      congr 1
      refine Finset.sum_congr rfl fun t _ => ?_
      rw [hvdef, hμ]
      push_cast
      rfl
    have hY : Y = ∑ t ∈ range c.nDft, (w t : ℂ) * dft t * (v t : ℂ) := by
      rw [hscale] at b7
      have h7 := mul_left_cancel₀ (one_div_ne_zero hS0) b7
      rw [← h7]
      refine Finset.sum_congr rfl fun t _ => ?_
      rw [hvdef, hμ]
      simp only [getD_map_complex]
      push_cast
      rfl
    have hYH : ‖Y - H‖ ≤ 2 * X * S * γ := by
      rw [hY, hH, ← Finset.sum_sub_distrib, ← hsum, Finset.mul_sum, Finset.sum_mul]
      refine (norm_sum_le _ _).trans (Finset.sum_le_sum fun t ht => ?_)
      rw [← sub_mul, ← mul_sub, norm_mul, norm_mul, Complex.norm_real, Complex.norm_real, Real.norm_of_nonneg (hw0 t), Real.norm_eq_abs]
      have k1 := g1 t (mem_range.1 ht)
      calc w t * ‖dft t - D t‖ * |v t| ≤ w t * γ * (2 * X) :=
            mul_le_mul (mul_le_mul_of_nonneg_left k1 (hw0 t)) (hv2 t) (abs_nonneg _) (mul_nonneg (hw0 t) hγ)
        _ = 2 * X * w t * γ := by ring
    have hHn : ‖H‖ ≤ 2 * X * a * S := by
      rw [hH, ← hsum, Finset.mul_sum]
      refine (norm_sum_le _ _).trans (Finset.sum_le_sum fun t ht => ?_)
      rw [norm_mul, norm_mul, Complex.norm_real, Complex.norm_real, Real.norm_of_nonneg (hw0 t), Real.norm_eq_abs, hda t]
      calc w t * a * |v t| ≤ w t * a * (2 * X) := mul_le_mul_of_nonneg_left (hv2 t) (mul_nonneg (hw0 t) (by linarith))
        _ = 2 * X * a * w t := by ring
    set E := (1 + u) ^ (4 * vals.length + 3 * c.nDft + 4) - 1 with hE
    have hE0 : 0 ≤ E := sub_nonneg.2 (one_le_pow₀ (by linarith))
    have hk : 4 * (s.out[m].1 + 1) + 3 * c.nDft + 4 ≤ 4 * vals.length + 3 * c.nDft + 4 := by omega
    have p3 := (b3.mono hu hk (le_refl _)).1
    have p4 := (b4.mono hu hk (le_refl _)).1
    rw [hsum] at p3 p4
    have hyY : ‖y - Y‖ ≤ 2 * (E * (2 * S * ((a + γ) * X))) := by
      refine (Complex.norm_le_abs_re_add_abs_im _).trans ?_
      rw [Complex.sub_re, Complex.sub_im]
      linarith
    set T := γ + 2 * (1 + γ) * E with hT
    have hyH : ‖y - H‖ ≤ 2 * X * a * S * T := by
      refine (norm_sub_le_norm_sub_add_norm_sub y Y H).trans ((add_le_add hyY hYH).trans ?_)
      have k1 : 2 * X * S * γ ≤ 2 * X * a * S * γ := by
        have : 0 ≤ 2 * X * S * γ := by positivity
        nlinarith [mul_le_mul_of_nonneg_left ha1.1 this]
      have k2 : (a + γ) ≤ a * (1 + γ) := by nlinarith
      have k3 : 2 * (E * (2 * S * ((a + γ) * X))) ≤ 2 * (E * (2 * S * (a * (1 + γ) * X))) := by gcongr
      rw [hT]
      calc _ ≤ 2 * (E * (2 * S * (a * (1 + γ) * X))) + 2 * X * a * S * γ := by linarith
        _ = _ := by ring
    have hs := scale_near hu hu1 c.win hw hpos (by rw [hwin]; exact hlt) sc (by rw [hwin]; exact g2)
    rw [hwin] at hs
    set η := (1 + u) ^ 2 / (2 - (1 + u) ^ c.nDft) - 1 with hη
    have hT0 : 0 ≤ T := by positivity
    have ha0 : 0 ≤ a := by linarith
    have hfin := scaled_near hu sc S η (2 * X * a) T hpos hs H y s.out[m].2.2 hHn hyH b5 b6
    rw [hspec]
    have hb : streamBound u γ vals.length c.nDft = (1 + u) * ((1 + η) * (1 + T)) - 1 := by
      have : (2 : ℝ) - (1 + u) ^ c.nDft ≠ 0 := by linarith
      rw [streamBound, hη, hT, hE]
      field_simp
      ring
    rw [hb]
    refine hfin.trans ?_
    have hη0 : 0 ≤ η := (abs_nonneg _).trans hs
    have h0 : 0 ≤ (1 + u) * ((1 + η) * (1 + T)) - 1 := by
      have k1 : (1 : ℝ) ≤ (1 + η) * (1 + T) := one_le_mul_of_one_le_of_one_le (le_add_of_nonneg_right hη0) (le_add_of_nonneg_right hT0)
      exact sub_nonneg.2 (one_le_mul_of_one_le_of_one_le (le_add_of_nonneg_right hu) k1)
    have : 2 * X * a ≤ 4 * X := by
      have := mul_le_mul_of_nonneg_left ha1.2 hX0
      linarith
    exact mul_le_mul_of_nonneg_right this h0
  · exact stream_mu_near c u w dft sc (a + γ) X vals hv s hnear

/-- **C245.** The column handed to the basis update, for a block `z` within `ε` of an exact one `e` of size at most `B`. -/
theorem column_near {u : ℝ} (hu : 0 ≤ u) (wt : ℝ) (z e x : ℂ) (ε B : ℝ) (hz : ‖z - e‖ ≤ ε) (he : ‖e‖ ≤ B) (h : FlColumn u wt z x) :
    ‖x - e * ((Real.sqrt wt : ℝ) : ℂ)‖ ≤ Real.sqrt wt * ((1 + u) ^ 2 * (ε + B) - B) := by
  obtain ⟨r, h1, h2, h3⟩ := h
  set q := Real.sqrt wt with hq
  have hq0 : 0 ≤ q := Real.sqrt_nonneg _
  unfold Rounds at h1
  rw [abs_of_nonneg hq0] at h1
  have hr : |r| ≤ (1 + u) * q := by
    have := abs_le.1 h1
    rw [abs_le]; constructor <;> nlinarith
  have hx : ‖x - (r : ℂ) * z‖ ≤ u * ‖(r : ℂ) * z‖ := by
    rw [Rounds] at h2 h3
    have r1 : (x - (r : ℂ) * z).re = x.re - z.re * r := by simp [mul_comm]
    have r2 : (x - (r : ℂ) * z).im = x.im - z.im * r := by simp [mul_comm]
    have r3 : ((r : ℂ) * z).re = z.re * r := by simp [mul_comm]
    have r4 : ((r : ℂ) * z).im = z.im * r := by simp [mul_comm]
    rw [complex_norm_sqrt, complex_norm_sqrt, r1, r2, r3, r4]
    have : u = Real.sqrt (u ^ 2) := (Real.sqrt_sq hu).symm
    rw [this, ← Real.sqrt_mul (sq_nonneg u)]
    refine Real.sqrt_le_sqrt ?_
    have q1 := pow_le_pow_left₀ (abs_nonneg _) h2 2
    have q2 := pow_le_pow_left₀ (abs_nonneg _) h3 2
    rw [sq_abs, mul_pow u, sq_abs] at q1 q2
    linarith
  have hzn : ‖z‖ ≤ ε + B := by
    have := norm_sub_norm_le z e
    linarith
  have e1 : x - e * (q : ℂ) = (x - (r : ℂ) * z) + ((r - q : ℝ) : ℂ) * z + (q : ℂ) * (z - e) := by push_cast; ring
  rw [norm_mul, Complex.norm_real, Real.norm_eq_abs] at hx
  have k1 : |r| * ‖z‖ ≤ (1 + u) * q * (ε + B) := mul_le_mul hr hzn (norm_nonneg _) (by positivity)
  have k2 : |r - q| * ‖z‖ ≤ u * q * (ε + B) := mul_le_mul h1 hzn (norm_nonneg _) (by positivity)
  have k3 : q * ‖z - e‖ ≤ q * ε := mul_le_mul_of_nonneg_left hz hq0
  calc ‖x - e * (q : ℂ)‖ ≤ ‖x - (r : ℂ) * z‖ + ‖((r - q : ℝ) : ℂ) * z‖ + ‖(q : ℂ) * (z - e)‖ := by rw [e1]; exact norm_add₃_le
    _ ≤ u * (|r| * ‖z‖) + |r - q| * ‖z‖ + q * ‖z - e‖ := by
      rw [norm_mul ((r - q : ℝ) : ℂ), norm_mul (q : ℂ), Complex.norm_real, Complex.norm_real, Real.norm_eq_abs, Real.norm_eq_abs, abs_of_nonneg hq0]
      linarith
    _ ≤ u * ((1 + u) * q * (ε + B)) + u * q * (ε + B) + q * ε := by
      have := mul_le_mul_of_nonneg_left k1 hu
      linarith
    _ = q * ((1 + u) ^ 2 * (ε + B) - B) := by ring

/-! ### The exact results are possible -/

theorem loop_fold {σ α : Type} (R : σ → α → σ → Prop) (g : σ → α → σ) (I : σ → Prop) (hI : ∀ s a, I s → I (g s a)) (l : List α) :
    ∀ s, I s → (∀ s, I s → ∀ a ∈ l, R s a (g s a)) → Loop R s l (l.foldl g s) := by
  induction l with
  | nil => intro s _ _; exact .nil s
  | cons a l ih => intro s hs h; exact .cons (h s hs a (by simp)) (ih _ (hI s a hs) fun s hs b hb => h s hs b (by simp [hb]))

theorem fitScale_possible {u : ℝ} (hu : 0 ≤ u) (win : List ℝ) (n : Nat) : FlScale u win n (winWeight win / n) :=
  ⟨win.sum / win.length, winWeight win, ⟨win.sum, sum_exact hu win, rounds_exact hu _⟩, by rw [winWeight]; exact rounds_exact hu _, rounds_exact hu _⟩

theorem step_possible {u : ℝ} (hu : 0 ≤ u) (P n dn : Nat) (w : Nat → ℝ) (D : Nat → ℂ) (ww : ℝ) (s : St ℂ) (hs : s.mu.im = 0) (x : ℝ) :
    FlStep u P n dn w D (ww / n) s x (step P n dn (fun t => (w t : ℂ)) D (ww : ℂ) s (x : ℂ)) ∧ (step P n dn (fun t => (w t : ℂ)) D (ww : ℂ) s (x : ℂ)).mu.im = 0 := by
  obtain ⟨em, hem⟩ : ∃ em : ℝ, em = (s.count * s.mu.re + x) / ((s.count : ℝ) + 1) := ⟨_, rfl⟩
  have hmu : (step P n dn (fun t => (w t : ℂ)) D (ww : ℂ) s (x : ℂ)).mu = (em : ℂ) := by
    have : s.mu = (s.mu.re : ℂ) := Complex.ext rfl (by simp [hs])
    simp only [step]
    rw [this, hem]
    push_cast
    rfl
  refine ⟨⟨rfl, ?_, ?_, (slotLoop P n dn (fun t => (w t : ℂ)) D (x : ℂ) s.slots).2, ?_, ?_⟩, by rw [hmu, Complex.ofReal_im]⟩
  · rw [hmu, Complex.ofReal_re]
    refine ⟨_, _, _, rounds_exact hu _, rounds_exact hu _, rounds_exact hu _, ?_⟩
    rw [hem, mul_one_div]; exact rounds_exact hu _
  · rw [hmu, Complex.ofReal_im]
  · refine loop_fold _ _ (fun _ => True) (fun _ _ _ => trivial) _ _ trivial fun st _ j _ => ?_
    refine ⟨_, ?_, rfl⟩
    split_ifs
    · refine ⟨_, ⟨_, _, _, rounds_exact hu _, rounds_exact hu _, rounds_exact hu _, ?_⟩, ⟨_, _, _, rounds_exact hu _, rounds_exact hu _, rounds_exact hu _, ?_⟩, rfl⟩
      · simp only [Complex.add_re, Complex.mul_re, Complex.ofReal_re, Complex.ofReal_im, Complex.mul_im]
        simpa using rounds_exact hu _
      · simp only [Complex.add_im, Complex.mul_re, Complex.ofReal_re, Complex.ofReal_im, Complex.mul_im]
        simpa using rounds_exact hu _
    · rfl
  · have ho : ∀ r, slotLoop P n dn (fun t => (w t : ℂ)) D (x : ℂ) s.slots = r → (step P n dn (fun t => (w t : ℂ)) D (ww : ℂ) s (x : ℂ)).out = match r.2.getLast? with
      | none => s.out
      | some (_, xhat) => s.out ++ [(s.count, r.2.map (·.1), (ww : ℂ) / (n : ℂ) * (List.range n).foldl (fun a row => a - (w row : ℂ) * D row * (em : ℂ)) xhat)] := by
      rintro r rfl
      rw [← hmu]
      simp only [step]
      cases (slotLoop P n dn (fun t => (w t : ℂ)) D (x : ℂ) s.slots).2.getLast? <;> rfl
    generalize hr : slotLoop P n dn (fun t => (w t : ℂ)) D (x : ℂ) s.slots = r
    rw [ho r hr]
    cases hl : r.2.getLast? with
    | none => rfl
    | some p =>
      refine ⟨(List.range n).foldl (fun a row => a - (w row : ℂ) * D row * (em : ℂ)) p.2,
        (ww : ℂ) / (n : ℂ) * (List.range n).foldl (fun a row => a - (w row : ℂ) * D row * (em : ℂ)) p.2, ?_, ?_, ?_, rfl⟩
      · refine loop_fold _ _ (fun _ => True) (fun _ _ _ => trivial) _ _ trivial fun a _ row _ => ?_
        rw [hmu, Complex.ofReal_re]
        refine ⟨⟨_, _, rounds_exact hu _, rounds_exact hu _, ?_⟩, ⟨_, _, rounds_exact hu _, rounds_exact hu _, ?_⟩⟩
        · simpa using rounds_exact hu _
        · simpa using rounds_exact hu _
      · rw [← Complex.ofReal_natCast, ← Complex.ofReal_div, Complex.re_ofReal_mul]; exact rounds_exact hu _
      · rw [← Complex.ofReal_natCast, ← Complex.ofReal_div, Complex.im_ofReal_mul]; exact rounds_exact hu _

theorem stream_possible {u γ : ℝ} (hu : 0 ≤ u) (hγ : 0 ≤ γ) (c : Cfg) (ω : ℂ) (f : Nat) (vals : List ℝ) : FlStream u γ c ω f vals (blocksAt c ω f vals) := by
  refine ⟨dftMat ω c.isreal (nFreq c.nDft c.isreal c.full) f, _, fun t _ => ?_, fitScale_possible hu c.win c.nDft, ?_⟩
  · rw [sub_self, norm_zero]; exact hγ
  · unfold blocksAt run
    rw [List.foldl_map]
    exact loop_fold _ _ (fun s : St ℂ => s.mu.im = 0) (fun s x hs => (step_possible hu _ _ _ (fun t => c.win.getD t 0) _ _ s hs x).2) vals (initSt (sep c)) rfl
      fun s hs x _ => (step_possible hu _ _ _ (fun t => c.win.getD t 0) _ _ s hs x).1

/-- the size of the bound -/
theorem streamBound_le {u : ℝ} (hu : 0 ≤ u) (γ : ℝ) (nt n : Nat) (h1 : ((4 * nt + 3 * n + 7 : ℕ) : ℝ) * u ≤ 1 / 100) (h0 : 0 ≤ γ) :
    streamBound u γ nt n ≤ 2 * (2 * (((4 * nt + 3 * n + 7 : ℕ) : ℝ) * u) + n * u + γ) := by
  have hn : (n : ℝ) * u ≤ ((4 * nt + 3 * n + 7 : ℕ) : ℝ) * u := mul_le_mul_of_nonneg_right (by exact_mod_cast (by omega)) hu
  have g1 := pow_near hu _ h1
  have g2 := pow_near hu n (hn.trans h1)
  set E := (1 + u) ^ (4 * nt + 3 * n + 4) - 1 with hE
  set a := (1 + u) ^ (4 * nt + 3 * n + 7) - 1 with ha
  set g := (1 + u) ^ n - 1 with hg
  set p := ((4 * nt + 3 * n + 7 : ℕ) : ℝ) * u
  set q := (n : ℝ) * u
  have hp : 0 ≤ p := mul_nonneg (Nat.cast_nonneg _) hu
  have hq : 0 ≤ q := mul_nonneg (Nat.cast_nonneg _) hu
  have hE0 : 0 ≤ E := sub_nonneg.2 (one_le_pow₀ (by linarith))
  have ha0 : 0 ≤ a := sub_nonneg.2 (one_le_pow₀ (by linarith))
  have hg0 : 0 ≤ g := sub_nonneg.2 (one_le_pow₀ (by linarith))
  have h13 : (1 : ℝ) ≤ (1 + u) ^ 3 := one_le_pow₀ (by linarith)
  have e1 : (1 + u) ^ 3 * (1 + E) = 1 + a := by rw [hE, ha]; ring
  have e2 : (1 + u) ^ 3 * (1 + γ + 2 * (1 + γ) * E) ≤ (1 + γ) * (1 + 2 * a) := by
    have k1 : (1 + u) ^ 3 * (1 + 2 * E) ≤ 1 + 2 * a := by linarith
    calc _ = (1 + γ) * ((1 + u) ^ 3 * (1 + 2 * E)) := by ring
      _ ≤ _ := mul_le_mul_of_nonneg_left k1 (by linarith)
  have e : streamBound u γ nt n = (1 + u) ^ 3 * (1 + γ + 2 * (1 + γ) * E) / (1 - g) - 1 := by
    rw [streamBound, hE, hg]; congr 2; ring
  rw [e, sub_le_iff_le_add, div_le_iff₀ (by linarith)]
  refine e2.trans ?_
  nlinarith [mul_nonneg ha0 h0, mul_nonneg hp hg0, mul_nonneg hq hg0, mul_nonneg h0 hg0]

/-- double precision, ten thousand snapshots, blocks of 256, a Fourier matrix with an error of `10^-14`: the error of a block is at most `10^-10` times the largest value -/
example (X : ℝ) (hX : 0 ≤ X) : 4 * X * streamBound (1 / 2 ^ 53) (1 / 10 ^ 14) 10000 256 ≤ X / 10 ^ 10 := by
  have := streamBound_le (u := 1 / 2 ^ 53) (by norm_num) (1 / 10 ^ 14) 10000 256 (by norm_num) (by norm_num)
  have h2 : streamBound (1 / 2 ^ 53) (1 / 10 ^ 14) 10000 256 ≤ 1 / (4 * 10 ^ 10) := this.trans (by norm_num)
  have := mul_le_mul_of_nonneg_left h2 (by linarith : 0 ≤ 4 * X)
  linarith

/-- the theorem applies: any stream (nine values give two blocks), blocks of four, single precision; the exact results are among the possible ones -/
example (vals : List ℝ) (X : ℝ) (hX : ∀ x ∈ vals, |x| ≤ X) :=
  stream_floating calmCfg (-Complex.I) (by simp) (by decide) (by decide) rfl (by simp [calmCfg, shortCfg]) (by norm_num [calmCfg, shortCfg]) (1 / 2 ^ 24) (by norm_num)
    (by norm_num [calmCfg, shortCfg]) (1 / 10 ^ 6) 1 vals X hX _ (stream_possible (by norm_num) (by norm_num) _ _ _ _)
example : nUpdates calmCfg (-Complex.I) 9 = 2 := by decide

end Verif.Props
