import Verif.Model.ErrRounding
import Verif.Props.Errors
import Verif.Props.FitRounding
import Verif.Props.VarRounding
/-
  C249: the error measures in floating-point arithmetic.
-/
namespace Verif.Props
open Verif Verif.Par Verif.Round Verif.Err Finset

/-! ### Lists of approximations -/

/-- relative error of at most `(1 + u)^k - 1` -/
def Near (u : ℝ) (k : Nat) (y e : ℝ) : Prop := Approx u k y e |e|

theorem Near.abs {u : ℝ} {k : Nat} {y e : ℝ} (h : Near u k y e) : Near u k |y| |e| := by
  refine ⟨?_, le_rfl⟩
  rw [abs_abs]
  exact (abs_abs_sub_abs_le _ _).trans h.1

theorem near_sum {u : ℝ} (hu : 0 ≤ u) (k : Nat) (ys es : List ℝ) (h : List.Forall₂ (Near u k) ys es) (h0 : ∀ e ∈ es, 0 ≤ e) (n : Nat) (hn : es.length ≤ n) (z : ℝ) (hz : FlSum u ys z) :
    Near u (k + n - 1) z es.sum := by
  have hl := h.length_eq
  have := sum_approx hu k n ((ys.zip es).map fun p => (p.1, p.2, |p.2|)) (by simp; omega) (by
    intro a ha
    obtain ⟨p, hp, rfl⟩ := List.mem_map.1 ha
    exact (List.forall₂_iff_zip.1 h).2 hp) z (by
    rw [List.map_map]
    have : ((fun x : ℝ × ℝ × ℝ => x.1) ∘ fun p : ℝ × ℝ => (p.1, p.2, |p.2|)) = Prod.fst := rfl
    rw [this, List.map_fst_zip hl.le]
    exact hz)
  rw [List.map_map, List.map_map] at this
  have e1 : ((fun x : ℝ × ℝ × ℝ => x.2.1) ∘ fun p : ℝ × ℝ => (p.1, p.2, |p.2|)) = Prod.snd := rfl
  have e2 : ((fun x : ℝ × ℝ × ℝ => x.2.2) ∘ fun p : ℝ × ℝ => (p.1, p.2, |p.2|)) = (fun x => |x|) ∘ Prod.snd := rfl
  rw [e1, e2, ← List.map_map, List.map_snd_zip hl.ge] at this
  have e3 : es.map (fun x => |x|) = es := by
    conv_rhs => rw [← List.map_id es]
    exact List.map_congr_left fun x hx => abs_of_nonneg (h0 x hx)
  rw [e3] at this
  rw [Near, abs_of_nonneg (List.sum_nonneg h0)]
  exact this

theorem sqrt_rel {a b E : ℝ} (hb : 0 ≤ b) (h : |a - b| ≤ E * b) : |Real.sqrt a - Real.sqrt b| ≤ E * Real.sqrt b := by
  rcases hb.eq_or_lt with h0 | h0
  · rw [← h0, mul_zero, sub_zero] at h
    have : a = 0 := abs_eq_zero.1 (le_antisymm h (abs_nonneg _))
    rw [this, ← h0]; simp
  have hs := Real.sqrt_pos.2 h0
  rcases le_total a 0 with ha | ha
  · rw [Real.sqrt_eq_zero_of_nonpos ha, zero_sub, abs_neg, abs_of_pos hs]
    have h1 : 1 ≤ E := by
      have := neg_abs_le (a - b)
      by_contra hE
      push Not at hE
      nlinarith
    nlinarith
  · have h1 : a - b = (Real.sqrt a - Real.sqrt b) * (Real.sqrt a + Real.sqrt b) := by
      have := Real.mul_self_sqrt ha
      have := Real.mul_self_sqrt hb
      linarith [mul_comm (Real.sqrt a) (Real.sqrt b)]
    have h2 : |a - b| = |Real.sqrt a - Real.sqrt b| * (Real.sqrt a + Real.sqrt b) := by
      rw [h1, abs_mul, abs_of_nonneg (by positivity : 0 ≤ Real.sqrt a + Real.sqrt b)]
    have h3 : |Real.sqrt a - Real.sqrt b| * Real.sqrt b ≤ E * Real.sqrt b * Real.sqrt b := by
      have k1 : |Real.sqrt a - Real.sqrt b| * Real.sqrt b ≤ |Real.sqrt a - Real.sqrt b| * (Real.sqrt a + Real.sqrt b) :=
        mul_le_mul_of_nonneg_left (by linarith [Real.sqrt_nonneg a]) (abs_nonneg _)
      have k2 : E * b = E * Real.sqrt b * Real.sqrt b := by rw [mul_assoc, Real.mul_self_sqrt hb]
      linarith
    exact le_of_mul_le_mul_right h3 hs

theorem near_round {u : ℝ} (hu : 0 ≤ u) {k : Nat} {y e z : ℝ} (h : Near u k y e) (hz : Rounds u y z) : Near u (k + 1) z e := h.round hu hz

theorem near_div {u : ℝ} (hu : 0 ≤ u) {k : Nat} {y e z : ℝ} (h : Near u k y e) (b : ℝ) (hz : Rounds u (y / b) z) : Near u (k + 1) z (e / b) := by
  have := h.mul hu b⁻¹ (z := z) (by rwa [← div_eq_mul_inv])
  rw [← div_eq_mul_inv, ← abs_mul, ← div_eq_mul_inv] at this
  exact this

theorem near_norm1 {u : ℝ} (hu : 0 ≤ u) (k : Nat) (ys es : List ℝ) (h : List.Forall₂ (Near u k) ys es) (n : Nat) (hn : es.length = n) (z : ℝ) (hz : FlNorm1 u n ys z) :
    Near u (k + n - 1 + 1) z (norm1 es / n) := by
  obtain ⟨s, hs, hz⟩ := hz
  have h1 : List.Forall₂ (Near u k) (ys.map fun x => |x|) (es.map fun x => |x|) := by
    rw [List.forall₂_map_left_iff, List.forall₂_map_right_iff]
    exact h.imp fun _ _ => Near.abs
  have := near_sum hu k _ _ h1 (by
    intro e he
    obtain ⟨x, -, rfl⟩ := List.mem_map.1 he
    exact abs_nonneg _) n (by rw [List.length_map, hn]) s hs
  exact near_div hu this n hz

theorem near_squares {u : ℝ} (hu : 0 ≤ u) (k : Nat) : ∀ (ys es ps : List ℝ), List.Forall₂ (Near u k) ys es → List.Forall₂ (fun p y => Rounds u (p.1 * p.2) y) (ys.zip ys) ps →
    List.Forall₂ (Near u (k + k + 1)) ps (es.map fun x => x ^ 2) := by
  intro ys
  induction ys with
  | nil =>
    intro es ps h1 h2
    cases h1
    cases h2
    exact .nil
  | cons y ys ih =>
    intro es ps h1 h2
    cases h1 with
    | cons a1 a2 =>
      rw [List.zip_cons_cons] at h2
      cases h2 with
      | cons b1 b2 =>
        rw [List.map_cons]
        refine .cons ?_ (ih _ _ a2 b2)
        have := Approx.times hu a1 a1 b1
        rw [← abs_mul, ← pow_two] at this
        exact this

theorem near_norm2 {u : ℝ} (hu : 0 ≤ u) (k : Nat) (ys es : List ℝ) (h : List.Forall₂ (Near u k) ys es) (n : Nat) (hn : es.length = n) (z : ℝ) (hz : FlNorm2 u n ys z) :
    Near u (k + k + 1 + n - 1 + 1 + 1) z (norm2 es / n) := by
  obtain ⟨s, q, ⟨ps, hps, hs⟩, hq, hz⟩ := hz
  have h0 : ∀ e ∈ es.map (fun x => x ^ 2), 0 ≤ e := by
    intro e he
    obtain ⟨x, -, rfl⟩ := List.mem_map.1 he
    exact sq_nonneg _
  have h1 := near_sum hu _ _ _ (near_squares hu k ys es ps h hps) h0 n (by rw [List.length_map, hn]) s hs
  have h2 : Near u (k + k + 1 + n - 1) (Real.sqrt s) (norm2 es) := by
    refine ⟨?_, le_rfl⟩
    have h3 := h1.1
    have hp := List.sum_nonneg h0
    rw [abs_of_nonneg hp] at h3
    rw [norm2, abs_of_nonneg (Real.sqrt_nonneg _)]
    exact sqrt_rel hp h3
  exact near_div hu (near_round hu h2 hq) n hz

theorem near_max {u : ℝ} (k : Nat) (hE : (1 + u) ^ k ≤ 2) (ys es : List ℝ) (h : List.Forall₂ (Near u k) ys es) (z x : ℝ) (hz : amax ys = some z) (hx : amax es = some x) : Near u k z x := by
  have hy : ys ≠ [] := by rintro rfl; simp [amax] at hz
  have he : es ≠ [] := by rintro rfl; simp [amax] at hx
  obtain ⟨z', a1, a2, a3⟩ := errAmax_spec ys hy
  obtain ⟨x', b1, b2, b3⟩ := errAmax_spec es he
  rw [hz] at a1
  rw [hx] at b1
  cases a1
  cases b1
  have hl := h.length_eq
  obtain ⟨i, hi, hiz⟩ := List.getElem_of_mem a2
  obtain ⟨j, hj, hjx⟩ := List.getElem_of_mem b2
  have ni := (h.get hi (by omega)).1
  have nj := (h.get (by omega : j < ys.length) hj).1
  simp only [List.get_eq_getElem] at ni nj
  rw [hiz] at ni
  rw [hjx] at nj
  have ci := b3 _ (List.getElem_mem (by omega : i < es.length))
  have cj := a3 _ (List.getElem_mem (by omega : j < ys.length))
  obtain ⟨E, hEd⟩ : ∃ E, E = (1 + u) ^ k - 1 := ⟨_, rfl⟩
  rw [← hEd] at ni nj
  obtain ⟨ei, hei⟩ : ∃ ei, ei = es[i] := ⟨_, rfl⟩
  obtain ⟨yj, hyj⟩ : ∃ yj, yj = ys[j] := ⟨_, rfl⟩
  rw [← hei] at ni ci
  rw [← hyj] at nj cj
  have hE1 : E ≤ 1 := by linarith
  refine ⟨?_, le_rfl⟩
  rw [← hEd, abs_le]
  have n1 := abs_le.1 ni
  have n2 := abs_le.1 nj
  constructor
  · linarith [n2.1]
  · have key : ei + E * |ei| ≤ x + E * |x| := by
      rcases le_total 0 E with hE0 | hE0
      · rcases le_total 0 ei with g1 | g1 <;> rcases le_total 0 x with g2 | g2
        · rw [abs_of_nonneg g1, abs_of_nonneg g2]; nlinarith
        · rw [abs_of_nonneg g1, abs_of_nonpos g2]; nlinarith
        · rw [abs_of_nonpos g1, abs_of_nonneg g2]; nlinarith
        · rw [abs_of_nonpos g1, abs_of_nonpos g2]; nlinarith
      · have h1 : |z - ei| ≤ 0 := ni.trans (mul_nonpos_of_nonpos_of_nonneg hE0 (abs_nonneg _))
        have h2 : E * |ei| = 0 := le_antisymm (mul_nonpos_of_nonpos_of_nonneg hE0 (abs_nonneg _)) ((abs_nonneg _).trans ni)
        have h3 : E * |x| = 0 := le_antisymm (mul_nonpos_of_nonpos_of_nonneg hE0 (abs_nonneg _)) ((abs_nonneg _).trans nj)
        rw [h2, h3]; linarith
    linarith [n1.2]

theorem near_abs_err {u : ℝ} (d r es : List ℝ) (h : FlAbsErr u d r es) : List.Forall₂ (Near u 1) es (gaps d r) := by
  have e : gaps d r = (d.zip r).map fun p => |p.1 - p.2| := by
    rw [gaps, List.zip_eq_zipWith, List.map_zipWith]
  rw [e, List.forall₂_map_right_iff]
  refine h.flip.imp fun e p he => ?_
  obtain ⟨x, hx, rfl⟩ := he
  refine Near.abs ⟨?_, le_rfl⟩
  rw [pow_one, add_sub_cancel_left]
  exact hx

theorem near_rel_err {u : ℝ} (hu : 0 ≤ u) (k : Nat) : ∀ (es gs r qs : List ℝ), List.Forall₂ (Near u k) es gs → FlRelErr u es r qs →
    List.Forall₂ (Near u (k + 1)) qs (List.zipWith (fun e b => e / b) gs r) := by
  intro es
  induction es with
  | nil =>
    intro gs r qs h1 h2
    cases h1
    cases h2
    exact .nil
  | cons e es ih =>
    intro gs r qs h1 h2
    cases h1 with
    | cons a1 a2 =>
      cases r with
      | nil =>
        cases h2
        rw [List.zipWith_nil_right]
        exact .nil
      | cons b r =>
        unfold FlRelErr at h2
        rw [List.zip_cons_cons] at h2
        cases h2 with
        | cons b1 b2 =>
          rw [List.zipWith_cons_cons]
          exact .cons (near_div hu a1 b b1) (ih _ _ _ a2 b2)

/-! ### C249 -/

def lTypes : List String := ["l1", "l2", "linf", "l1_rel", "l2_rel", "linf_rel"]
def relTypes : List String := ["l1_rel", "l2_rel", "linf_rel"]

/-- **C249.** The error measures in floating-point arithmetic: for fields of the same non-zero size (for the relative measures: with a reference without zeros) every possible result
    differs from the exact error by at most `(1 + u)^(n + 6) - 1` times the exact error -/
theorem errors_floating {u : ℝ} (hu : 0 ≤ u) (hu1 : (1 + u) ^ 2 ≤ 2) (d r : List ℝ) (h : d.length = r.length) (hd : d ≠ []) (ty : String) (hty : ty ∈ lTypes)
    (h0 : ty ∈ relTypes → ∀ b ∈ r, b ≠ 0) :
    ∃ x, lErr d r ty = .val x ∧ ∀ z, FlErr u d r ty z → |z - x| ≤ ((1 + u) ^ (d.length + 6) - 1) * |x| := by
  have hn : d.length ≠ 0 := by simpa using hd
  have hg := gaps_length d r h
  have hmono : ∀ k ≤ d.length + 6, ∀ z x, Near u k z x → |z - x| ≤ ((1 + u) ^ (d.length + 6) - 1) * |x| := fun k hk z x hz => (hz.mono hu hk le_rfl).1
  have hu2 : (1 + u) ^ 1 ≤ 2 := by rw [pow_one]; nlinarith
  have hgne : gaps d r ≠ [] := by rw [← List.length_pos_iff, hg]; omega
  have hrel : (∀ b ∈ r, b ≠ 0) → (relErr (gaps d r) r).mapM (fun x => x) = some (List.zipWith (fun e b => e / b) (gaps d r) r) := fun hr => by
    rw [relErr_some _ _ hr]
    induction (List.zipWith (fun e b => e / b) (gaps d r) r) with
    | nil => rfl
    | cons a l ih => rw [List.map_cons, List.mapM_cons, ih]; rfl
  have hql : (List.zipWith (fun e b => e / b) (gaps d r) r).length = d.length := by rw [List.length_zipWith, hg, ← h, Nat.min_self]
  simp only [lTypes, List.mem_cons, List.not_mem_nil, or_false] at hty
  unfold lErr
  rw [absErr_eq d r h]
  rcases hty with rfl | rfl | rfl | rfl | rfl | rfl
  · refine ⟨norm1 (gaps d r) / d.length, by simp [overN, hn], fun z ⟨es, qs, h1, h2, h3⟩ => ?_⟩
    rw [if_pos rfl] at h3
    exact hmono _ (by omega) _ _ (near_norm1 hu 1 es _ (near_abs_err d r es h1) _ hg z h3)
  · refine ⟨norm2 (gaps d r) / d.length, by simp [overN, hn], fun z ⟨es, qs, h1, h2, h3⟩ => ?_⟩
    rw [if_neg (by decide), if_pos rfl] at h3
    exact hmono _ (by omega) _ _ (near_norm2 hu 1 es _ (near_abs_err d r es h1) _ hg z h3)
  · obtain ⟨x, hx, -⟩ := errAmax_spec _ hgne
    refine ⟨x, by simp [hx], fun z ⟨es, qs, h1, h2, h3⟩ => ?_⟩
    rw [if_neg (by decide), if_neg (by decide), if_pos rfl] at h3
    exact hmono 1 (by omega) _ _ (near_max 1 hu2 es _ (near_abs_err d r es h1) z x h3 hx)
  · have hr := hrel (h0 (by decide))
    refine ⟨norm1 (List.zipWith (fun e b => e / b) (gaps d r) r) / d.length, by simp [overN, hn, hr], fun z ⟨es, qs, h1, h2, h3⟩ => ?_⟩
    rw [if_neg (by decide), if_neg (by decide), if_neg (by decide), if_pos rfl] at h3
    exact hmono _ (by omega) _ _ (near_norm1 hu 2 qs _ (near_rel_err hu 1 es _ r qs (near_abs_err d r es h1) h2) _ hql z h3)
  · have hr := hrel (h0 (by decide))
    refine ⟨norm2 (List.zipWith (fun e b => e / b) (gaps d r) r) / d.length, by simp [overN, hn, hr], fun z ⟨es, qs, h1, h2, h3⟩ => ?_⟩
    rw [if_neg (by decide), if_neg (by decide), if_neg (by decide), if_neg (by decide), if_pos rfl] at h3
    exact hmono _ (by omega) _ _ (near_norm2 hu 2 qs _ (near_rel_err hu 1 es _ r qs (near_abs_err d r es h1) h2) _ hql z h3)
  · have hr := hrel (h0 (by decide))
    obtain ⟨x, hx, -⟩ := errAmax_spec (List.zipWith (fun e b => e / b) (gaps d r) r) (by rw [← List.length_pos_iff, hql]; omega)
    refine ⟨x, by simp [throughNorm, hr, hx], fun z ⟨es, qs, h1, h2, h3⟩ => ?_⟩
    rw [if_neg (by decide), if_neg (by decide), if_neg (by decide), if_neg (by decide), if_neg (by decide), if_pos rfl] at h3
    exact hmono 2 (by omega) _ _ (near_max 2 hu1 qs _ (near_rel_err hu 1 es _ r qs (near_abs_err d r es h1) h2) z x h3 hx)

/-- **C249.** The computed errors are never negative, and they are zero exactly for equal fields (all measures but `linf_rel`, which is signed, C58) -/
theorem errors_floating_zero {u : ℝ} (hu : 0 ≤ u) (d r : List ℝ) (hu1 : (1 + u) ^ (d.length + 6) < 2) (h : d.length = r.length) (hd : d ≠ []) (ty : String) (hty : ty ∈ lTypes)
    (hs : ty ≠ "linf_rel") (h0 : ty ∈ relTypes → ∀ b ∈ r, b ≠ 0) (z : ℝ) (hz : FlErr u d r ty z) : 0 ≤ z ∧ (z = 0 ↔ d = r) := by
  have hu2 : (1 + u) ^ 2 ≤ 2 := (pow_le_pow_right₀ (by linarith) (by omega)).trans hu1.le
  obtain ⟨x, h1, h2⟩ := errors_floating hu hu2 d r h hd ty hty h0
  have h3 := h2 z hz
  have hx : 0 ≤ x ∧ (x = 0 ↔ d = r) := by
    have key : ∃ y, lErr d r ty = .val y ∧ 0 ≤ y ∧ (y = 0 ↔ d = r) := by
      simp only [lTypes, List.mem_cons, List.not_mem_nil, or_false] at hty
      rcases hty with rfl | rfl | rfl | rfl | rfl | rfl
      · obtain ⟨y, a, b, c, -⟩ := l1_error d r h hd
        exact ⟨y, a, b, c⟩
      · obtain ⟨y, a, b, c, -⟩ := l2_error d r h hd
        exact ⟨y, a, b, c⟩
      · obtain ⟨y, a, b, c, -⟩ := linf_error d r h hd
        exact ⟨y, a, b, c⟩
      · exact rel_errors_partial d r h hd (h0 (by decide)) _ (Or.inl rfl)
      · exact rel_errors_partial d r h hd (h0 (by decide)) _ (Or.inr rfl)
      · exact absurd rfl hs
    obtain ⟨y, a, b⟩ := key
    rw [h1] at a
    cases a
    exact b
  obtain ⟨x0, x1⟩ := hx
  rw [abs_of_nonneg x0] at h3
  have g := abs_le.1 h3
  obtain ⟨E, hE⟩ : ∃ E, E = (1 + u) ^ (d.length + 6) - 1 := ⟨_, rfl⟩
  have hE1 : E < 1 := by rw [hE]; linarith
  rw [← hE] at g
  refine ⟨by nlinarith [g.1], ?_⟩
  rw [← x1]
  constructor
  · intro hz0
    rw [hz0] at g
    by_contra hne
    have : 0 < x := lt_of_le_of_ne x0 (Ne.symm hne)
    nlinarith [g.1]
  · intro hx0
    rw [hx0, mul_zero, sub_zero] at g
    linarith [g.1, g.2]

/-- **C249.** In any two evaluations, whatever the order of the additions, the results differ by at most twice that bound -/
theorem errors_floating_two {u : ℝ} (hu : 0 ≤ u) (hu1 : (1 + u) ^ 2 ≤ 2) (d r : List ℝ) (h : d.length = r.length) (hd : d ≠ []) (ty : String) (hty : ty ∈ lTypes)
    (h0 : ty ∈ relTypes → ∀ b ∈ r, b ≠ 0) (x : ℝ) (hx : lErr d r ty = .val x) (z z' : ℝ) (hz : FlErr u d r ty z) (hz' : FlErr u d r ty z') :
    |z - z'| ≤ 2 * (((1 + u) ^ (d.length + 6) - 1) * |x|) := by
  obtain ⟨y, h1, h2⟩ := errors_floating hu hu1 d r h hd ty hty h0
  rw [hx] at h1
  cases h1
  have a := h2 z hz
  have b := h2 z' hz'
  have c := abs_sub_le z x z'
  rw [abs_sub_comm x z'] at c
  linarith

theorem sum_getD (s : List ℝ) (n : Nat) (h : s.length = n) : ∑ k ∈ range n, s.getD k 0 = s.sum := by
  rw [← h, ← list_range_sum]
  congr 1
  refine List.ext_getElem (by simp) fun i h1 h2 => ?_
  simp [List.getElem?_eq_getElem h2]

theorem getD_le (s : List ℝ) (X : ℝ) (hX : 0 ≤ X) (h : ∀ x ∈ s, |x| ≤ X) (k : Nat) : |s.getD k 0| ≤ X := by
  rcases lt_or_ge k s.length with hk | hk
  · rw [List.getD_eq_getElem _ _ hk]; exact h _ (List.getElem_mem hk)
  · rw [List.getD_eq_default _ _ hk, abs_zero]; exact hX

theorem sqrt_abs_sub {a b : ℝ} (hb : 0 ≤ b) : |Real.sqrt a - Real.sqrt b| ≤ Real.sqrt |a - b| := by
  refine Real.le_sqrt_of_sq_le ?_
  rcases le_total a 0 with ha | ha
  · rw [Real.sqrt_eq_zero_of_nonpos ha, zero_sub, sq_abs, neg_sq, Real.sq_sqrt hb, abs_of_nonpos (by linarith)]
    linarith
  · have h1 := Real.mul_self_sqrt ha
    have h2 := Real.mul_self_sqrt hb
    have h3 : a - b = (Real.sqrt a - Real.sqrt b) * (Real.sqrt a + Real.sqrt b) := by linarith [mul_comm (Real.sqrt a) (Real.sqrt b)]
    rw [h3, abs_mul, abs_of_nonneg (by positivity : 0 ≤ Real.sqrt a + Real.sqrt b), pow_two]
    refine mul_le_mul_of_nonneg_left ?_ (abs_nonneg _)
    rw [abs_le]
    constructor <;> linarith [Real.sqrt_nonneg a, Real.sqrt_nonneg b]

/-- bound on the rounding error under the root of the `h1` error of `T` snapshots of `n` values of magnitude at most `X` -/
noncomputable def h1Error (u X dt : ℝ) (n T : Nat) : ℝ := ((1 + u) ^ (2 * n + T + 6) - 1) * (16 * X ^ 2 * n ^ 2 * T / dt)

/-- **C249.** The `h1` error in floating-point arithmetic: differences cancel, so that the error is relative to the magnitude of the fields, not to the result -/
theorem h1_floating {u : ℝ} (hu : 0 ≤ u) (d r : List (List ℝ)) (dt : ℝ) (hdt : 0 < dt) (n : Nat) (hd : ∀ s ∈ d, s.length = n) (hr : ∀ s ∈ r, s.length = n)
    (hlen : d.length ≤ r.length) (X : ℝ) (hX : 0 ≤ X) (hdX : ∀ s ∈ d, ∀ x ∈ s, |x| ≤ X) (hrX : ∀ s ∈ r, ∀ x ∈ s, |x| ≤ X) :
    ∃ x, hErr d r dt "h1" = .val x ∧ ∀ z, FlH1 u d r dt n z → |z - x| ≤ u * x + (1 + u) * Real.sqrt (h1Error u X dt n d.length) := by
  refine ⟨_, h1_exact d r dt hdt n hd hr hlen, fun z ⟨t, s, ht, hs, hz⟩ => ?_⟩
  obtain ⟨G, hG⟩ : ∃ G : Nat → ℝ, G = fun (i : Nat) => if i = 0 then 0 else (gapSum d r i - gapSum d r (i - 1)) ^ 2 / dt := ⟨_, rfl⟩
  rw [← hG]
  have hG0 : ∀ i, 0 ≤ G i := fun i => by
    rw [hG]
    simp only
    split
    · exact le_rfl
    · exact div_nonneg (sq_nonneg _) hdt.le
  have gl : ∀ (q : List (List ℝ)), (∀ s ∈ q, s.length = n) → ∀ j, j < q.length → (q.getD j []).length = n := by
    intro q hq j hj
    rw [List.getD_eq_getElem _ _ hj]; exact hq _ (List.getElem_mem _)
  have gx : ∀ (q : List (List ℝ)), (∀ s ∈ q, ∀ x ∈ s, |x| ≤ X) → ∀ j k, |(q.getD j []).getD k 0| ≤ X := by
    intro q hq j k
    refine getD_le _ X hX ?_ k
    rcases lt_or_ge j q.length with hj | hj
    · rw [List.getD_eq_getElem _ _ hj]; exact hq _ (List.getElem_mem hj)
    · rw [List.getD_eq_default _ _ hj]; simp
  have hterm : ∀ i < d.length, Approx u (2 * n + 7) (t i) (G i) (16 * X ^ 2 * n ^ 2 / dt) := by
    intro i hi
    have := ht i hi
    unfold FlH1Term at this
    split at this
    · rename_i h0
      rw [this, hG]
      simp only [h0, if_true]
      have hB : 0 ≤ 16 * X ^ 2 * (n : ℝ) ^ 2 / dt := by positivity
      refine ⟨?_, by rw [abs_zero]; exact hB⟩
      rw [sub_zero, abs_zero]
      exact mul_nonneg (sub_nonneg.2 (one_le_pow₀ (by linarith))) hB
    · rename_i h0
      obtain ⟨a, a', b, b', e, s', q, h1, h2, h3, h4⟩ := this
      obtain ⟨ex, hex⟩ : ∃ ex : Nat → ℝ, ex = fun k => ((d.getD i []).getD k 0 - (d.getD (i - 1) []).getD k 0) / dt - ((r.getD i []).getD k 0 - (r.getD (i - 1) []).getD k 0) / dt := ⟨_, rfl⟩
      have he : ∀ k < n, Approx u 3 (e k) (ex k) (4 * X / dt) := by
        intro k hk
        obtain ⟨k1, k2, k3, k4, k5⟩ := h1 k hk
        have w : ∀ (v : ℝ), |v| ≤ X → Approx u 0 v v X := fun v hv => (Approx.exact v).mono hu le_rfl hv
        have a1 := ((w _ (gx d hdX i k)).sub hu (w _ (gx d hdX (i - 1) k)) k1).quot hu dt hdt k2
        have b1 := ((w _ (gx r hrX i k)).sub hu (w _ (gx r hrX (i - 1) k)) k3).quot hu dt hdt k4
        have := a1.sub hu b1 k5
        rw [hex]
        refine this.mono hu (by omega) (le_of_eq ?_)
        ring
      have hsum := sum_approx hu 3 n ((List.range n).map fun k => (e k, ex k, 4 * X / dt)) (by simp) (by
        intro p hp
        obtain ⟨k, hk, rfl⟩ := List.mem_map.1 hp
        exact he k (List.mem_range.1 hk)) s' (by rw [List.map_map]; exact h2)
      simp only [List.map_map, Function.comp_def] at hsum
      rw [list_range_sum, list_range_sum, Finset.sum_const, card_range, nsmul_eq_mul] at hsum
      have hexs : ∑ k ∈ range n, ex k = (gapSum d r i - gapSum d r (i - 1)) / dt := by
        rw [hex]
        simp only
        rw [Finset.sum_sub_distrib, ← Finset.sum_div, ← Finset.sum_div, Finset.sum_sub_distrib, Finset.sum_sub_distrib, sum_getD _ n (gl d hd i hi), sum_getD _ n (gl d hd (i - 1) (by omega)),
          sum_getD _ n (gl r hr i (by omega)), sum_getD _ n (gl r hr (i - 1) (by omega)), gapSum, gapSum]
        ring
      rw [hexs] at hsum
      have h5 := (hsum.times hu hsum h3).mul hu dt (z := t i) (by rwa [mul_comm])
      have e1 : (gapSum d r i - gapSum d r (i - 1)) / dt * ((gapSum d r i - gapSum d r (i - 1)) / dt) * dt = G i := by
        rw [hG]
        simp only [h0, if_false]
        field_simp
      have e2 : n * (4 * X / dt) * (n * (4 * X / dt)) * |dt| = 16 * X ^ 2 * n ^ 2 / dt := by
        rw [abs_of_pos hdt]
        field_simp
        ring
      rw [e1, e2] at h5
      exact h5.mono hu (by omega) le_rfl
  have hall := sum_approx hu (2 * n + 7) d.length ((List.range d.length).map fun i => (t i, G i, 16 * X ^ 2 * n ^ 2 / dt)) (by simp) (by
    intro p hp
    obtain ⟨i, hi, rfl⟩ := List.mem_map.1 hp
    exact hterm i (List.mem_range.1 hi)) s (by rw [List.map_map]; exact hs)
  simp only [List.map_map, Function.comp_def] at hall
  rw [list_range_sum d.length fun _ => 16 * X ^ 2 * (n : ℝ) ^ 2 / dt, Finset.sum_const, card_range, nsmul_eq_mul] at hall
  obtain ⟨S, hS⟩ : ∃ S, S = ((List.range d.length).map fun i => G i).sum := ⟨_, rfl⟩
  rw [← hS] at hall
  have hS0 : 0 ≤ S := by
    rw [hS]
    refine List.sum_nonneg fun x hx => ?_
    obtain ⟨i, -, rfl⟩ := List.mem_map.1 hx
    exact hG0 i
  have hk : |s - S| ≤ h1Error u X dt n d.length := by
    refine (hall.mono hu (by omega : _ ≤ 2 * n + d.length + 6) le_rfl).1.trans (le_of_eq ?_)
    rw [h1Error]
    congr 1
    ring
  have hD := (sqrt_abs_sub (a := s) hS0).trans (Real.sqrt_le_sqrt hk)
  have hSe : ((List.range d.length).map G).sum = S := hS.symm
  rw [hSe]
  obtain ⟨D, hDd⟩ : ∃ D, D = Real.sqrt (h1Error u X dt n d.length) := ⟨_, rfl⟩
  rw [← hDd] at hD ⊢
  unfold Rounds at hz
  rw [abs_of_nonneg (Real.sqrt_nonneg s)] at hz
  have g := abs_le.1 hD
  have c := abs_sub_le z (Real.sqrt s) (Real.sqrt S)
  have k1 : u * Real.sqrt s ≤ u * (Real.sqrt S + D) := mul_le_mul_of_nonneg_left (by linarith [g.2]) hu
  linarith

/-! ### The hypotheses can be met, and the exact errors are possible -/

theorem flAbsErr_exact {u : ℝ} (hu : 0 ≤ u) (d r : List ℝ) : FlAbsErr u d r (gaps d r) := by
  have e : gaps d r = (d.zip r).map fun p => |p.1 - p.2| := by rw [gaps, List.zip_eq_zipWith, List.map_zipWith]
  rw [FlAbsErr, e, List.forall₂_map_right_iff, List.forall₂_same]
  exact fun p _ => ⟨_, rounds_exact hu _, rfl⟩

theorem flRelErr_exact {u : ℝ} (hu : 0 ≤ u) (es r : List ℝ) : FlRelErr u es r (List.zipWith (fun e b => e / b) es r) := by
  have e : List.zipWith (fun e b => e / b) es r = (es.zip r).map fun p => p.1 / p.2 := by rw [List.zip_eq_zipWith, List.map_zipWith]
  rw [FlRelErr, e, List.forall₂_map_right_iff, List.forall₂_same]
  exact fun p _ => rounds_exact hu _

theorem flNorm1_exact {u : ℝ} (hu : 0 ≤ u) (n : Nat) (v : List ℝ) : FlNorm1 u n v (norm1 v / n) := ⟨_, sum_exact hu _, rounds_exact hu _⟩

theorem flNorm2_exact {u : ℝ} (hu : 0 ≤ u) (n : Nat) (v : List ℝ) : FlNorm2 u n v (norm2 v / n) := by
  refine ⟨(v.map fun x => x ^ 2).sum, norm2 v, ?_, rounds_exact hu _, rounds_exact hu _⟩
  have := dot_exact hu (v.zip v)
  have e : (v.zip v).map (fun p => p.1 * p.2) = v.map fun x => x ^ 2 := by
    induction v with
    | nil => rfl
    | cons a v ih => rw [List.zip_cons_cons, List.map_cons, List.map_cons, ih (dot_exact hu _), pow_two]
  rwa [e] at this

/-- the exact error is a possible result -/
theorem errors_possible {u : ℝ} (hu : 0 ≤ u) (d r : List ℝ) (h : d.length = r.length) (hd : d ≠ []) (ty : String) (hty : ty ∈ lTypes)
    (h0 : ty ∈ relTypes → ∀ b ∈ r, b ≠ 0) : ∃ x, lErr d r ty = .val x ∧ FlErr u d r ty x := by
  have hn : d.length ≠ 0 := by simpa using hd
  have hg := gaps_length d r h
  have hgne : gaps d r ≠ [] := by rw [← List.length_pos_iff, hg]; omega
  have hrel : (∀ b ∈ r, b ≠ 0) → (relErr (gaps d r) r).mapM (fun x => x) = some (List.zipWith (fun e b => e / b) (gaps d r) r) := fun hr => by
    rw [relErr_some _ _ hr]
    induction (List.zipWith (fun e b => e / b) (gaps d r) r) with
    | nil => rfl
    | cons a l ih => rw [List.map_cons, List.mapM_cons, ih]; rfl
  have hql : (List.zipWith (fun e b => e / b) (gaps d r) r).length = d.length := by rw [List.length_zipWith, hg, ← h, Nat.min_self]
  have ha := flAbsErr_exact hu d r
  have hb := flRelErr_exact hu (gaps d r) r
  simp only [lTypes, List.mem_cons, List.not_mem_nil, or_false] at hty
  unfold lErr
  rw [absErr_eq d r h]
  rcases hty with rfl | rfl | rfl | rfl | rfl | rfl
  · exact ⟨norm1 (gaps d r) / d.length, by simp [overN, hn], _, _, ha, hb, by simpa using flNorm1_exact hu d.length (gaps d r)⟩
  · exact ⟨norm2 (gaps d r) / d.length, by simp [overN, hn], _, _, ha, hb, by simpa using flNorm2_exact hu d.length (gaps d r)⟩
  · obtain ⟨x, hx, -⟩ := errAmax_spec _ hgne
    exact ⟨x, by simp [hx], _, _, ha, hb, by simpa using hx⟩
  · have hr := hrel (h0 (by decide))
    exact ⟨norm1 (List.zipWith (fun e b => e / b) (gaps d r) r) / d.length, by simp [overN, hn, hr], _, _, ha, hb, by simpa using flNorm1_exact hu d.length _⟩
  · have hr := hrel (h0 (by decide))
    exact ⟨norm2 (List.zipWith (fun e b => e / b) (gaps d r) r) / d.length, by simp [overN, hn, hr], _, _, ha, hb, by simpa using flNorm2_exact hu d.length _⟩
  · have hr := hrel (h0 (by decide))
    obtain ⟨x, hx, -⟩ := errAmax_spec (List.zipWith (fun e b => e / b) (gaps d r) r) (by rw [← List.length_pos_iff, hql]; omega)
    exact ⟨x, by simp [throughNorm, hr, hx], _, _, ha, hb, by simpa using hx⟩

/-- the exact `h1` error is a possible result -/
theorem h1_possible {u : ℝ} (hu : 0 ≤ u) (d r : List (List ℝ)) (dt : ℝ) (hdt : 0 < dt) (n : Nat) (hd : ∀ s ∈ d, s.length = n) (hr : ∀ s ∈ r, s.length = n) (hlen : d.length ≤ r.length) :
    ∃ x, hErr d r dt "h1" = .val x ∧ FlH1 u d r dt n x := by
  refine ⟨_, h1_exact d r dt hdt n hd hr hlen, fun i => if i = 0 then 0 else (gapSum d r i - gapSum d r (i - 1)) ^ 2 / dt, _, fun i hi => ?_, sum_exact hu _, rounds_exact hu _⟩
  unfold FlH1Term
  split
  · rename_i h0; simp [h0]
  · rename_i h0
    have gl : ∀ (q : List (List ℝ)), (∀ s ∈ q, s.length = n) → ∀ j, j < q.length → (q.getD j []).length = n := by
      intro q hq j hj
      rw [List.getD_eq_getElem _ _ hj]; exact hq _ (List.getElem_mem _)
    obtain ⟨ex, hex⟩ : ∃ ex : Nat → ℝ, ex = fun k => ((d.getD i []).getD k 0 - (d.getD (i - 1) []).getD k 0) / dt - ((r.getD i []).getD k 0 - (r.getD (i - 1) []).getD k 0) / dt := ⟨_, rfl⟩
    have hexs : ∑ k ∈ range n, ex k = (gapSum d r i - gapSum d r (i - 1)) / dt := by
      rw [hex]
      simp only
      rw [Finset.sum_sub_distrib, ← Finset.sum_div, ← Finset.sum_div, Finset.sum_sub_distrib, Finset.sum_sub_distrib, sum_getD _ n (gl d hd i hi), sum_getD _ n (gl d hd (i - 1) (by omega)),
        sum_getD _ n (gl r hr i (by omega)), sum_getD _ n (gl r hr (i - 1) (by omega)), gapSum, gapSum]
      ring
    refine ⟨_, _, _, _, ex, (gapSum d r i - gapSum d r (i - 1)) / dt, _, fun k _ => ⟨rounds_exact hu _, rounds_exact hu _, rounds_exact hu _, rounds_exact hu _, ?_⟩, ?_, rounds_exact hu _, ?_⟩
    · rw [hex]; exact rounds_exact hu _
    · rw [← hexs, ← list_range_sum]; exact sum_exact hu _
    · have : dt * ((gapSum d r i - gapSum d r (i - 1)) / dt * ((gapSum d r i - gapSum d r (i - 1)) / dt)) = (gapSum d r i - gapSum d r (i - 1)) ^ 2 / dt := by field_simp
      rw [this]; simp only [h0, if_false]; exact rounds_exact hu _

/-- double precision, a million values: nine correct digits, for every measure -/
example (d r : List ℝ) (h : d.length = r.length) (hd : d.length = 1000000) (h0 : ∀ b ∈ r, b ≠ 0) (ty : String) (hty : ty ∈ lTypes) (z : ℝ) (hz : FlErr (1 / 2 ^ 53) d r ty z) :
    ∃ x, lErr d r ty = .val x ∧ |z - x| ≤ 1 / 10 ^ 9 * |x| := by
  obtain ⟨x, h1, h2⟩ := errors_floating (u := 1 / 2 ^ 53) (by norm_num) (by norm_num) d r h (by rw [← List.length_pos_iff]; omega) ty hty fun _ => h0
  refine ⟨x, h1, (h2 z hz).trans (mul_le_mul_of_nonneg_right ?_ (abs_nonneg _))⟩
  rw [hd]
  exact (pow_near (u := 1 / 2 ^ 53) (by norm_num) (1000000 + 6) (by norm_num)).trans (by norm_num)

/-- the rounded result need not be the exact one -/
example : FlErr (1 / 2) [1] [0] "linf" (3 / 2) :=
  ⟨[3 / 2], [0], .cons ⟨3 / 2, by norm_num [Rounds], by norm_num⟩ .nil, .cons (by norm_num [Rounds]) .nil, by simp [amax]⟩

end Verif.Props
