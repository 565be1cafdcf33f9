import Verif.Model.Double
import Verif.Model.FitFiles
/-
  C239, C240: counts and frequencies in double precision.
-/
namespace Verif.Props
open Verif Verif.Dbl

/-! ### Rounding to nearest meets the contract -/

theorem two_zpow_pos (e : ℤ) : (0 : ℝ) < 2 ^ e := by positivity

theorem log_le {x : ℝ} (hx : 0 < x) : (2 : ℝ) ^ Int.log 2 x ≤ x := by
  have := Int.zpow_log_le_self (b := 2) (by norm_num) hx
  exact_mod_cast this

theorem lt_log {x : ℝ} : x < (2 : ℝ) ^ (Int.log 2 x + 1) := by
  have := Int.lt_zpow_succ_log_self (b := 2) (by norm_num) x
  exact_mod_cast this

theorem scaled_bounds {x : ℝ} (hx : 0 < x) : (2 : ℝ) ^ (52 : ℤ) ≤ x * 2 ^ (52 - Int.log 2 x) ∧ x * 2 ^ (52 - Int.log 2 x) < 2 ^ (53 : ℤ) := by
  have hp := two_zpow_pos (52 - Int.log 2 x)
  constructor
  · have := mul_le_mul_of_nonneg_right (log_le hx) hp.le
    rwa [← zpow_add₀ two_ne_zero, show Int.log 2 x + (52 - Int.log 2 x) = 52 by ring] at this
  · have := mul_lt_mul_of_pos_right (lt_log (x := x)) hp
    rwa [← zpow_add₀ two_ne_zero, show Int.log 2 x + 1 + (52 - Int.log 2 x) = 53 by ring] at this

theorem round_mono {x y : ℝ} (h : x ≤ y) : round x ≤ round y := by
  rw [round_eq, round_eq]; exact Int.floor_le_floor (by linarith)

theorem rnPos_bounds {x : ℝ} (hx : 0 < x) : (2 : ℝ) ^ Int.log 2 x ≤ rnPos x ∧ rnPos x ≤ 2 ^ (Int.log 2 x + 1) := by
  obtain ⟨h1, h2⟩ := scaled_bounds hx
  have hp := two_zpow_pos (Int.log 2 x - 52)
  have e1 : (2 : ℝ) ^ (52 : ℤ) = ((2 ^ 52 : ℤ) : ℝ) := by norm_num
  have e2 : (2 : ℝ) ^ (53 : ℤ) = ((2 ^ 53 : ℤ) : ℝ) := by norm_num
  have r1 : (2 ^ 52 : ℤ) ≤ round (x * (2 : ℝ) ^ (52 - Int.log 2 x)) := by
    rw [e1] at h1
    have := round_mono h1
    rwa [round_intCast] at this
  have r2 : round (x * (2 : ℝ) ^ (52 - Int.log 2 x)) ≤ (2 ^ 53 : ℤ) := by
    rw [e2] at h2
    have := round_mono h2.le
    rwa [round_intCast] at this
  have r1' : (2 : ℝ) ^ (52 : ℤ) ≤ (round (x * (2 : ℝ) ^ (52 - Int.log 2 x)) : ℤ) := by rw [e1]; exact_mod_cast r1
  have r2' : ((round (x * (2 : ℝ) ^ (52 - Int.log 2 x)) : ℤ) : ℝ) ≤ (2 : ℝ) ^ (53 : ℤ) := by rw [e2]; exact_mod_cast r2
  constructor
  · have := mul_le_mul_of_nonneg_right r1' hp.le
    rwa [← zpow_add₀ two_ne_zero, show 52 + (Int.log 2 x - 52) = Int.log 2 x by ring] at this
  · have := mul_le_mul_of_nonneg_right r2' hp.le
    rwa [← zpow_add₀ two_ne_zero, show 53 + (Int.log 2 x - 52) = Int.log 2 x + 1 by ring] at this

theorem rnPos_mono {x y : ℝ} (hx : 0 < x) (h : x ≤ y) : rnPos x ≤ rnPos y := by
  have hy : 0 < y := hx.trans_le h
  have hl : Int.log 2 x ≤ Int.log 2 y := Int.log_mono_right hx h
  rcases hl.eq_or_lt with e | hlt
  · unfold rnPos
    rw [e]
    refine mul_le_mul_of_nonneg_right ?_ (two_zpow_pos _).le
    exact_mod_cast round_mono (mul_le_mul_of_nonneg_right h (two_zpow_pos _).le)
  · refine (rnPos_bounds hx).2.trans (le_trans ?_ (rnPos_bounds hy).1)
    exact zpow_le_zpow_right₀ (by norm_num) (by omega)

theorem rnPos_near {x : ℝ} (hx : 0 < x) : |rnPos x - x| ≤ x / 2 ^ 53 := by
  obtain ⟨h1, -⟩ := scaled_bounds hx
  have hp := two_zpow_pos (Int.log 2 x - 52)
  have hxe : x = x * (2 : ℝ) ^ (52 - Int.log 2 x) * 2 ^ (Int.log 2 x - 52) := by
    rw [mul_assoc, ← zpow_add₀ two_ne_zero, show 52 - Int.log 2 x + (Int.log 2 x - 52) = 0 by ring, zpow_zero, mul_one]
  set z := x * (2 : ℝ) ^ (52 - Int.log 2 x) with hz
  have hr := abs_sub_round z
  have e : rnPos x - x = ((round z : ℤ) - z) * 2 ^ (Int.log 2 x - 52) := by
    rw [sub_mul, ← hxe]; rfl
  rw [e, abs_mul, abs_of_pos hp, abs_sub_comm]
  have h2 : x / 2 ^ 53 = z / 2 ^ 53 * 2 ^ (Int.log 2 x - 52) := by rw [div_mul_eq_mul_div, ← hxe]
  rw [h2]
  refine mul_le_mul_of_nonneg_right (hr.trans ?_) hp.le
  rw [le_div_iff₀ (by norm_num)]
  have : (2 : ℝ) ^ (52 : ℤ) = 2 ^ 52 := by norm_num
  rw [this] at h1
  linarith [h1]

theorem rnPos_fixed (m k : ℤ) (hm : 0 < m) (hm2 : m ≤ 2 ^ 53) : rnPos ((m : ℝ) * 2 ^ k) = (m : ℝ) * 2 ^ k := by
  set x := (m : ℝ) * 2 ^ k with hx
  have hm' : (0 : ℝ) < m := by exact_mod_cast hm
  have hx0 : 0 < x := mul_pos hm' (two_zpow_pos k)
  have hback : ∀ z : ℤ, x * (2 : ℝ) ^ (52 - Int.log 2 x) = z → rnPos x = x := by
    intro z hz
    unfold rnPos
    rw [hz, round_intCast, ← hz, mul_assoc, ← zpow_add₀ two_ne_zero, show 52 - Int.log 2 x + (Int.log 2 x - 52) = 0 by ring, zpow_zero, mul_one]
  have hm2' : (m : ℝ) ≤ 2 ^ (53 : ℤ) := by
    have : (m : ℝ) ≤ ((2 ^ 53 : ℤ) : ℝ) := by exact_mod_cast hm2
    refine this.trans (by norm_num)
  rcases le_or_gt (Int.log 2 x) (k + 52) with h | h
  · obtain ⟨d, hd⟩ := Int.eq_ofNat_of_zero_le (show 0 ≤ k + (52 - Int.log 2 x) by omega)
    refine hback (m * 2 ^ d) ?_
    rw [hx, mul_assoc, ← zpow_add₀ two_ne_zero, ← hx, hd]
    push_cast
    rw [zpow_natCast]
  · have h1 : (2 : ℝ) ^ (k + 53) ≤ x := le_trans (zpow_le_zpow_right₀ (by norm_num) (by omega)) (log_le hx0)
    have h2 : x ≤ 2 ^ (k + 53) := by
      rw [hx, zpow_add₀ two_ne_zero, mul_comm]
      exact mul_le_mul_of_nonneg_left hm2' (two_zpow_pos k).le
    have h3 : x = 2 ^ (k + 53) := le_antisymm h2 h1
    have h4 : Int.log 2 x ≤ k + 53 := by
      have h5 := log_le hx0
      rw [h3] at h5 ⊢
      by_contra hc
      exact absurd (lt_of_lt_of_le (zpow_lt_zpow_right₀ (by norm_num : (1 : ℝ) < 2) (not_le.1 hc)) h5) (lt_irrefl _)
    have h5 : Int.log 2 x = k + 53 := by omega
    refine hback (2 ^ 52) ?_
    rw [h5, h3, ← zpow_add₀ two_ne_zero, show k + 53 + (52 - (k + 53)) = 52 by ring]
    norm_num

theorem rnPos_pos {x : ℝ} (hx : 0 < x) : 0 < rnPos x := (two_zpow_pos _).trans_le (rnPos_bounds hx).1

/-- rounding to nearest is a rounding to double precision in the sense of the contract -/
theorem rn_double : IsDouble rn := by
  refine ⟨fun x y h => ?_, fun m k hm => ?_, fun x => ?_⟩
  · unfold rn
    split_ifs with h1 h2 h3 h4 h5 h6 h7 h8 <;> try linarith
    · exact rnPos_mono h1 h
    · have := rnPos_pos (x := y) (by assumption)
      have := rnPos_pos (x := -x) (by linarith)
      linarith
    · have := rnPos_mono (x := -y) (y := -x) (by linarith) (by linarith)
      linarith
    · have := rnPos_pos (x := -x) (by linarith)
      linarith
    all_goals exact (rnPos_pos (by assumption)).le
  · rcases lt_trichotomy m 0 with h | h | h
    · have hneg : (m : ℝ) * 2 ^ k < 0 := mul_neg_of_neg_of_pos (by exact_mod_cast h) (two_zpow_pos k)
      unfold rn
      rw [if_neg (by linarith), if_pos hneg]
      have := rnPos_fixed (-m) k (by omega) (by rw [abs_of_neg h] at hm; exact hm)
      push_cast at this
      rw [← neg_mul, this]; ring
    · subst h; simp [rn]
    · have hpos : 0 < (m : ℝ) * 2 ^ k := mul_pos (by exact_mod_cast h) (two_zpow_pos k)
      unfold rn
      rw [if_pos hpos]
      exact rnPos_fixed m k h (by rw [abs_of_pos h] at hm; exact hm)
  · unfold rn
    split_ifs with h1 h2
    · rw [abs_of_pos h1]; exact rnPos_near h1
    · have := rnPos_near (x := -x) (by linarith)
      rw [abs_of_neg h2]
      rwa [show -rnPos (-x) - x = -(rnPos (-x) - -x) by ring, abs_neg]
    · have : x = 0 := by linarith
      subst this; simp

/-! ### Counts -/

theorem fl_nat {fl : ℝ → ℝ} (h : IsDouble fl) (n : ℤ) (hn : |n| ≤ 2 ^ 53) : fl n = n := by
  have := h.fixed n 0 hn
  simpa using this

/-- a quotient of integers is rounded to a number on the same side of every integer -/
theorem ceil_quotient {fl : ℝ → ℝ} (h : IsDouble fl) (a b : Nat) (hb : 0 < b) (ha : a < 2 ^ 53) : ⌈fl ((a : ℝ) / b)⌉ = ⌈(a : ℝ) / b⌉ := by
  have hb' : (0 : ℝ) < b := by exact_mod_cast hb
  have hb1 : (1 : ℝ) ≤ b := by exact_mod_cast hb
  have ha' : (a : ℝ) < 2 ^ 53 := by exact_mod_cast ha
  have hx0 : 0 ≤ (a : ℝ) / b := by positivity
  have hxa : (a : ℝ) / b ≤ a := div_le_self (Nat.cast_nonneg _) hb1
  set k := ⌈(a : ℝ) / b⌉ with hk
  have hk0 : 0 ≤ k := Int.ceil_nonneg hx0
  have hka : k ≤ 2 ^ 53 := by
    have : k ≤ a := Int.ceil_le.2 (by exact_mod_cast hxa)
    omega
  have hle : (a : ℝ) / b ≤ k := Int.le_ceil _
  have h1 : fl ((a : ℝ) / b) ≤ k := by
    have := h.mono hle
    rwa [fl_nat h k (by rw [abs_of_nonneg hk0]; exact hka)] at this
  rw [Int.ceil_eq_iff]
  refine ⟨?_, h1⟩
  have hlt : (k : ℝ) - 1 < (a : ℝ) / b := by have := Int.ceil_lt_add_one ((a : ℝ) / b); linarith
  have hgap : (k : ℝ) - 1 + 1 / b ≤ (a : ℝ) / b := by
    rw [lt_div_iff₀ hb'] at hlt
    have h2 : (k - 1) * (b : ℤ) < a := by exact_mod_cast hlt
    have h3 : (k - 1) * (b : ℤ) + 1 ≤ a := h2
    have h4 : ((k : ℝ) - 1) * b + 1 ≤ a := by exact_mod_cast h3
    rw [le_div_iff₀ hb', add_mul, one_div, inv_mul_cancel₀ hb'.ne']
    exact h4
  have hn := (abs_le.1 (h.near ((a : ℝ) / b))).1
  rw [abs_of_nonneg hx0] at hn
  have hsmall : (a : ℝ) / b / 2 ^ 53 < 1 / b := by
    rw [div_div, mul_comm, ← div_div]
    exact (div_lt_div_iff_of_pos_right hb').2 (by rw [div_lt_one (by positivity)]; exact ha')
  linarith

/-- **C240.** `math.ceil(a/b)` and `int(np.ceil(a/b))` of integers, as the code computes them in double precision, are the exact ones -/
theorem ceilDiv_exact {fl : ℝ → ℝ} (h : IsDouble fl) (a b : Nat) (hb : 0 < b) (ha : a < 2 ^ 53) : ceilDiv fl a b = ((a + b - 1) / b : Nat) := by
  unfold ceilDiv
  rw [ceil_quotient h a b hb ha]
  have hb' : (0 : ℝ) < b := by exact_mod_cast hb
  rw [Int.ceil_eq_iff]
  have h1 := Nat.div_add_mod (a + b - 1) b
  have h2 := Nat.mod_lt (a + b - 1) hb
  set q := (a + b - 1) / b
  constructor
  · rw [lt_div_iff₀ hb']
    have : q * b + 1 ≤ a + b := by rw [mul_comm]; omega
    have h3 : (q : ℝ) * b + 1 ≤ a + b := by exact_mod_cast this
    push_cast
    linarith
  · rw [div_le_iff₀ hb']
    have : a ≤ q * b := by rw [mul_comm]; omega
    push_cast
    exact_mod_cast this

/-- **C240.** The number of frequencies of the streaming fit -/
theorem halfCount_exact {fl : ℝ → ℝ} (h : IsDouble fl) (nDft : Nat) (hn : nDft < 2 ^ 52) : halfCount fl nDft = (nDft / 2 + 1 : Nat) := by
  unfold halfCount
  have f1 : fl ((nDft : ℝ) / 2) = (nDft : ℝ) / 2 := by
    have := h.fixed nDft (-1) (by rw [abs_of_nonneg (by positivity)]; omega)
    rw [show ((nDft : ℤ) : ℝ) * 2 ^ (-1 : ℤ) = (nDft : ℝ) / 2 by rw [zpow_neg]; norm_num; ring] at this
    exact this
  have f2 : fl ((nDft : ℝ) / 2 + 1) = (nDft : ℝ) / 2 + 1 := by
    have := h.fixed (nDft + 2 : Nat) (-1) (by rw [abs_of_nonneg (by positivity)]; omega)
    rw [show (((nDft + 2 : Nat) : ℤ) : ℝ) * 2 ^ (-1 : ℤ) = (nDft : ℝ) / 2 + 1 by rw [zpow_neg]; push_cast; norm_num; ring] at this
    exact this
  rw [f1, f2, Int.floor_eq_iff]
  have h1 : nDft / 2 * 2 ≤ nDft := by omega
  have h2 : nDft < nDft / 2 * 2 + 2 := by omega
  have h1' : ((nDft / 2 : Nat) : ℝ) * 2 ≤ nDft := by exact_mod_cast h1
  have h2' : (nDft : ℝ) < ((nDft / 2 : Nat) : ℝ) * 2 + 2 := by exact_mod_cast h2
  rw [Int.cast_natCast, Nat.cast_add, Nat.cast_one]
  constructor <;> linarith

theorem fl_zero {fl : ℝ → ℝ} (h : IsDouble fl) : fl 0 = 0 := by
  have := h.fixed 0 0 (by norm_num)
  simpa using this

/-- two roundings, of a quotient of integers and of its quotient by another integer -/
theorem floor_quotients {fl : ℝ → ℝ} (h : IsDouble fl) (a b c : Nat) (hb : 0 < b) (hc : 0 < c) (x : ℝ) (hx : x = a / b) (hab : a < 2 ^ 51) :
    ⌊fl (fl x / c)⌋ = (a / (b * c) : Nat) := by
  have hb' : (0 : ℝ) < b := by exact_mod_cast hb
  have hc' : (0 : ℝ) < c := by exact_mod_cast hc
  have hx0 : 0 ≤ x := by rw [hx]; positivity
  have ha' : (a : ℝ) < 2 ^ 51 := by exact_mod_cast hab
  set k := a / (b * c) with hk
  have h1 : b * c * k + a % (b * c) = a := Nat.div_add_mod a (b * c)
  have h2 := Nat.mod_lt a (Nat.mul_pos hb hc)
  have hka : k * c ≤ a := by
    have : k * c ≤ k * (b * c) := Nat.mul_le_mul_left _ (Nat.le_mul_of_pos_left _ hb)
    rw [mul_comm k (b * c)] at this
    omega
  have hkc : (k : ℝ) * c ≤ x := by
    rw [hx, le_div_iff₀ hb']
    have : k * c * b ≤ a := by
      have e : k * c * b = b * c * k := by ring
      rw [e]; omega
    exact_mod_cast this
  have hk1 : k ≤ k * c := Nat.le_mul_of_pos_right _ hc
  rw [Int.floor_eq_iff]
  constructor
  · have g1 : ((k * c : ℕ) : ℝ) ≤ fl x := by
      have := h.mono (show (((k * c : ℕ) : ℤ) : ℝ) ≤ x by push_cast; exact hkc)
      rw [fl_nat h _ (by rw [abs_of_nonneg (by positivity)]; omega)] at this
      exact_mod_cast this
    have g2 : (k : ℝ) ≤ fl x / c := by rw [le_div_iff₀ hc']; push_cast at g1; exact g1
    have := h.mono (show ((k : ℤ) : ℝ) ≤ fl x / c by exact_mod_cast g2)
    rwa [fl_nat h _ (by rw [abs_of_nonneg (by positivity)]; omega)] at this
  · have n1 := (abs_le.1 (h.near x)).2
    have n2 := (abs_le.1 (h.near (fl x / c))).2
    have p1 : 0 ≤ fl x := by have := h.mono hx0; rwa [fl_zero h] at this
    rw [abs_of_nonneg hx0] at n1
    rw [abs_of_nonneg (by positivity)] at n2
    have u1 : fl x ≤ x * (1 + 1 / 2 ^ 53) := by linarith
    have u2 : fl (fl x / c) ≤ x / c * (1 + 1 / 2 ^ 53) ^ 2 := by
      calc fl (fl x / c) ≤ fl x / c * (1 + 1 / 2 ^ 53) := by linarith
        _ ≤ x * (1 + 1 / 2 ^ 53) / c * (1 + 1 / 2 ^ 53) := by
          refine mul_le_mul_of_nonneg_right (div_le_div_of_nonneg_right u1 hc'.le) (by norm_num)
        _ = _ := by ring
    refine lt_of_le_of_lt u2 ?_
    have e : x / c = a / (b * c) := by rw [hx, div_div]
    have hbc : (0 : ℝ) < b * c := by positivity
    rw [e, div_mul_eq_mul_div, div_lt_iff₀ hbc]
    have h3 : a + 1 ≤ (k + 1) * (b * c) := by
      have e2 : (k + 1) * (b * c) = b * c * k + b * c := by ring
      rw [e2]; omega
    have h4 : (a : ℝ) + 1 ≤ (k + 1) * (b * c) := by exact_mod_cast h3
    have h5 : (a : ℝ) * (1 + 1 / 2 ^ 53) ^ 2 < a + 1 := by
      have h6 : (1 + 1 / 2 ^ 53 : ℝ) ^ 2 ≤ 1 + 1 / 2 ^ 51 := by norm_num
      have h7 := mul_le_mul_of_nonneg_left h6 (Nat.cast_nonneg (α := ℝ) a)
      have h8 : (a : ℝ) * (1 / 2 ^ 51) < 1 := by
        rw [mul_one_div, div_lt_one (by positivity)]; exact ha'
      linarith
    push_cast
    linarith

/-- **C240.** The number of chunks in which files are read, computed in double precision, is the exact one as long as the data have fewer than `2^51` bytes -/
theorem chunks_exact {fl : ℝ → ℝ} (h : IsDouble fl) (nt nx nv item p : Nat) (hp : 0 < p) (hsize : nt * (nx * nv * item) < 2 ^ 51) :
    chunks fl nt (nx * nv) item p = Fit.nChunks nt nx nv item p := by
  have key : fl (nt * fl (fl ((nx * nv * item : Nat) / 1024) / 1024)) = (nt * (nx * nv * item) : Nat) / 2 ^ 20 := by
    rcases Nat.eq_zero_or_pos nt with rfl | hnt
    · simp [fl_zero h]
    · have hV : nx * nv * item ≤ nt * (nx * nv * item) := Nat.le_mul_of_pos_left _ hnt
      set V := nx * nv * item with hVd
      have f1 : fl ((V : ℝ) / 1024) = (V : ℝ) / 1024 := by
        have := h.fixed V (-10) (by rw [abs_of_nonneg (by positivity)]; omega)
        rw [show ((V : ℤ) : ℝ) * 2 ^ (-10 : ℤ) = (V : ℝ) / 1024 by rw [zpow_neg]; norm_num; ring] at this
        exact this
      have f2 : fl ((V : ℝ) / 1024 / 1024) = (V : ℝ) / 2 ^ 20 := by
        have := h.fixed V (-20) (by rw [abs_of_nonneg (by positivity)]; omega)
        rw [show ((V : ℤ) : ℝ) * 2 ^ (-20 : ℤ) = (V : ℝ) / 1024 / 1024 by rw [zpow_neg]; norm_num; ring] at this
        rw [this]; norm_num; ring
      have f3 : fl (nt * ((V : ℝ) / 2 ^ 20)) = (nt * V : Nat) / 2 ^ 20 := by
        have := h.fixed (nt * V : Nat) (-20) (by rw [abs_of_nonneg (by positivity)]; omega)
        rw [show (((nt * V : Nat) : ℤ) : ℝ) * 2 ^ (-20 : ℤ) = nt * ((V : ℝ) / 2 ^ 20) by rw [zpow_neg]; push_cast; norm_num; ring] at this
        rw [this]; push_cast; ring
      rw [f1, f2, f3]
  unfold chunks Fit.nChunks
  rw [key]
  have e := floor_quotients h (nt * (nx * nv * item)) (p * 2 ^ 20) 256 (by positivity) (by norm_num) ((nt * (nx * nv * item) : Nat) / 2 ^ 20 / (p : ℝ))
    (by rw [div_div]; push_cast; rw [mul_comm (p : ℝ)]; norm_num) hsize
  rw [show ((256 : ℕ) : ℝ) = 256 by norm_num] at e
  rw [e, show p * 2 ^ 20 * 256 = p * 2 ^ 28 by ring]
  push_cast
  rfl

/-- **C240.** … and for MATLAB files, where it is at most the number of snapshots per rank -/
theorem chunks_mat_exact {fl : ℝ → ℝ} (h : IsDouble fl) (nt nx nv item p : Nat) (hp : 0 < p) (hnt : nt < 2 ^ 51) (hsize : nt * (nx * nv * item) < 2 ^ 51) :
    min (chunks fl nt (nx * nv) item p) (ceilDiv fl nt p) = Fit.nChunksMat nt nx nv item p := by
  rw [chunks_exact h nt nx nv item p hp hsize, ceilDiv_exact h nt p hp (by omega)]
  unfold Fit.nChunksMat
  push_cast
  rfl

/-! ### The overlap -/

/-- **C239 (partial).** A whole percentage: the overlap is the exact one -/
theorem overlap_whole_partial {fl : ℝ → ℝ} (h : IsDouble fl) (nDft pct : Nat) (hs : nDft * pct < 2 ^ 53) :
    overlap fl nDft pct = ⌈(nDft : ℚ) * pct / 100⌉ := by
  unfold overlap
  have e : fl ((nDft : ℝ) * (pct : ℝ)) = (nDft * pct : Nat) := by
    have := fl_nat h (nDft * pct : Nat) (by rw [abs_of_nonneg (by positivity)]; omega)
    push_cast at this ⊢
    exact this
  rw [e]
  have := ceil_quotient h (nDft * pct) 100 (by norm_num) hs
  rw [show ((100 : ℕ) : ℝ) = 100 by norm_num] at this
  rw [this]
  have e2 : (((nDft * pct : Nat) : ℝ) / 100) = (((nDft : ℚ) * pct / 100 : ℚ) : ℝ) := by push_cast; ring
  rw [e2, Rat.ceil_cast]

/-- **C239 (partial).** Any percentage between 0 and 100, as a number of double precision or not: the overlap is off by at most one -/
theorem overlap_any_partial {fl : ℝ → ℝ} (h : IsDouble fl) (nDft : Nat) (hn : nDft < 2 ^ 50) (pct q : ℝ) (h0 : 0 ≤ q) (h1 : q ≤ 100) (hq : |pct - q| ≤ q / 2 ^ 53) :
    |overlap fl nDft pct - ⌈(nDft : ℝ) * q / 100⌉| ≤ 1 := by
  have hn' : (nDft : ℝ) < 2 ^ 50 := by exact_mod_cast hn
  have hn0 : (0 : ℝ) ≤ nDft := Nat.cast_nonneg _
  obtain ⟨q1, q2⟩ := abs_le.1 hq
  have hp0 : 0 ≤ pct := by
    have : q / 2 ^ 53 ≤ q := div_le_self h0 (by norm_num)
    linarith
  set x := (nDft : ℝ) * pct with hx
  have hx0 : 0 ≤ x := mul_nonneg hn0 hp0
  obtain ⟨a1, a2⟩ := abs_le.1 (h.near x)
  rw [abs_of_nonneg hx0] at a1 a2
  have y0 : 0 ≤ fl x := by have := h.mono hx0; rwa [fl_zero h] at this
  obtain ⟨b1, b2⟩ := abs_le.1 (h.near (fl x / 100))
  rw [abs_of_nonneg (by positivity)] at b1 b2
  set z := fl (fl x / 100) with hz
  set t := (nDft : ℝ) * q / 100 with ht
  have ht1 : t ≤ nDft := by rw [ht, div_le_iff₀ (by norm_num)]; exact mul_le_mul_of_nonneg_left h1 hn0
  have ht0 : 0 ≤ t := by positivity
  have c1 : (nDft : ℝ) * (pct - q) ≤ nDft * (q / 2 ^ 53) := mul_le_mul_of_nonneg_left q2 hn0
  have c2 : (nDft : ℝ) * (-(q / 2 ^ 53)) ≤ nDft * (pct - q) := mul_le_mul_of_nonneg_left q1 hn0
  have e1 : x / 100 - t = nDft * (pct - q) / 100 := by rw [hx, ht]; ring
  have d1 : x / 100 - t ≤ t / 2 ^ 53 := by
    rw [e1, ht]
    have : (nDft : ℝ) * (q / 2 ^ 53) / 100 = nDft * q / 100 / 2 ^ 53 := by ring
    linarith
  have d2 : -(t / 2 ^ 53) ≤ x / 100 - t := by
    rw [e1, ht]
    have : (nDft : ℝ) * (-(q / 2 ^ 53)) / 100 = -(nDft * q / 100 / 2 ^ 53) := by ring
    linarith
  have close : |z - t| < 1 := by
    rw [abs_lt]
    constructor <;> nlinarith
  obtain ⟨z1, z2⟩ := abs_lt.1 close
  have u1 : ⌈z⌉ ≤ ⌈t⌉ + 1 := by
    rw [Int.ceil_le]; push_cast
    have := Int.le_ceil t
    linarith
  have u2 : ⌈t⌉ ≤ ⌈z⌉ + 1 := by
    rw [Int.ceil_le]; push_cast
    have := Int.le_ceil z
    linarith
  show |⌈z⌉ - ⌈t⌉| ≤ 1
  rw [abs_le]
  constructor <;> linarith

/-- a value of the rounding to nearest -/
theorem rn_value (x : ℝ) (e m : ℤ) (h1 : (2 : ℝ) ^ e ≤ x) (h2 : x < 2 ^ (e + 1)) (h3 : |x * 2 ^ (52 - e) - m| < 1 / 2) : rn x = m * 2 ^ (e - 52) := by
  have hx : 0 < x := (two_zpow_pos e).trans_le h1
  have hlog : Int.log 2 x = e := by
    apply le_antisymm
    · have h4 := log_le hx
      by_contra hc
      have : (2 : ℝ) ^ (e + 1) ≤ 2 ^ Int.log 2 x := zpow_le_zpow_right₀ (by norm_num) (by omega)
      linarith
    · have h4 := lt_log (x := x)
      by_contra hc
      have : (2 : ℝ) ^ (Int.log 2 x + 1) ≤ 2 ^ e := zpow_le_zpow_right₀ (by norm_num) (by omega)
      linarith
  have hr : round (x * (2 : ℝ) ^ (52 - e)) = m := by
    rw [round_eq, Int.floor_eq_iff]
    obtain ⟨g1, g2⟩ := abs_lt.1 h3
    constructor <;> linarith
  unfold rn rnPos
  rw [if_pos hx, hlog, hr]

/-- **C239 (fails).** `n_dft = 1000` and `overlap = 16.1`: 16.1 % of 1000 is exactly 161, and the blocks overlap by 162 snapshots -/
theorem overlap_decimal_fails : overlap rn 1000 (rn (161 / 10)) = 162 ∧ ⌈(1000 : ℚ) * (161 / 10) / 100⌉ = 161 := by
  constructor
  · have e1 : rn (161 / 10) = (4531747125041562 : ℤ) * (2 : ℝ) ^ ((4 : ℤ) - 52) := rn_value _ 4 _ (by norm_num) (by norm_num) (by rw [abs_lt]; norm_num)
    unfold overlap
    rw [e1]
    have e2 : rn ((1000 : ℕ) * ((4531747125041562 : ℤ) * (2 : ℝ) ^ ((4 : ℤ) - 52))) = (8851068603596801 : ℤ) * (2 : ℝ) ^ ((13 : ℤ) - 52) :=
      rn_value _ 13 _ (by norm_num) (by norm_num) (by rw [abs_lt]; norm_num)
    rw [e2]
    have e3 : rn (((8851068603596801 : ℤ) * (2 : ℝ) ^ ((13 : ℤ) - 52)) / 100) = (5664683906301953 : ℤ) * (2 : ℝ) ^ ((7 : ℤ) - 52) :=
      rn_value _ 7 _ (by norm_num) (by norm_num) (by rw [abs_lt]; norm_num)
    rw [e3, Int.ceil_eq_iff]
    norm_num
  · rw [Int.ceil_eq_iff]; norm_num

/-! ### The frequency axis -/

/-- two roundings of a positive multiple of `k` -/
theorem two_rounds {fl : ℝ → ℝ} (h : IsDouble fl) (x y d : ℝ) (hx : 0 ≤ x) (hd : 0 < d) (hy : y = fl (fl x / d)) :
    x / d * (1 - 1 / 2 ^ 53) ^ 2 ≤ y ∧ y ≤ x / d * (1 + 1 / 2 ^ 53) ^ 2 := by
  obtain ⟨a1, a2⟩ := abs_le.1 (h.near x)
  rw [abs_of_nonneg hx] at a1 a2
  have y0 : 0 ≤ fl x := by have := h.mono hx; rwa [fl_zero h] at this
  obtain ⟨b1, b2⟩ := abs_le.1 (h.near (fl x / d))
  rw [abs_of_nonneg (div_nonneg y0 hd.le)] at b1 b2
  rw [← hy] at b1 b2
  constructor
  · calc x / d * (1 - 1 / 2 ^ 53) ^ 2 = x * (1 - 1 / 2 ^ 53) / d * (1 - 1 / 2 ^ 53) := by ring
      _ ≤ fl x / d * (1 - 1 / 2 ^ 53) := mul_le_mul_of_nonneg_right (div_le_div_of_nonneg_right (by linarith) hd.le) (by norm_num)
      _ ≤ y := by linarith
  · calc y ≤ fl x / d * (1 + 1 / 2 ^ 53) := by linarith
      _ ≤ x * (1 + 1 / 2 ^ 53) / d * (1 + 1 / 2 ^ 53) := mul_le_mul_of_nonneg_right (div_le_div_of_nonneg_right (by linarith) hd.le) (by norm_num)
      _ = _ := by ring

theorem rounds_increasing (c : ℝ) (hc : 0 < c) (g : Nat → ℝ) (hg : ∀ k, c * k * (1 - 1 / 2 ^ 53) ^ 2 ≤ g k ∧ g k ≤ c * k * (1 + 1 / 2 ^ 53) ^ 2) (j k : Nat) (hjk : j < k)
    (hk : k < 2 ^ 50) : g j < g k := by
  have h1 : (j : ℝ) + 1 ≤ k := by exact_mod_cast hjk
  have h2 : (k : ℝ) < 2 ^ 50 := by exact_mod_cast hk
  have h3 : (j : ℝ) * (1 + 1 / 2 ^ 53) ^ 2 < k * (1 - 1 / 2 ^ 53) ^ 2 := by nlinarith
  have h4 := mul_lt_mul_of_pos_left h3 hc
  calc g j ≤ c * j * (1 + 1 / 2 ^ 53) ^ 2 := (hg j).2
    _ < c * k * (1 - 1 / 2 ^ 53) ^ 2 := by linarith
    _ ≤ g k := (hg k).1

/-- **C240.** The frequency axis of real data, computed in double precision: it starts at 0, is strictly increasing, no entry exceeds the rounded Nyquist frequency, which is the last
    entry for even `n_dft`, and every entry has a relative error of at most `2^-51` -/
theorem freqReal_axis {fl : ℝ → ℝ} (h : IsDouble fl) (nDft : Nat) (hn : 0 < nDft) (hn2 : nDft < 2 ^ 50) (dt : ℝ) (hdt : 0 < dt) :
    freqReal fl nDft dt 0 = 0 ∧ (∀ j k, j < k → k ≤ nDft / 2 → freqReal fl nDft dt j < freqReal fl nDft dt k) ∧
    (∀ k ≤ nDft / 2, freqReal fl nDft dt k ≤ fl (1 / 2 / dt)) ∧ (nDft % 2 = 0 → freqReal fl nDft dt (nDft / 2) = fl (1 / 2 / dt)) ∧
    ∀ k : Nat, |freqReal fl nDft dt k - k / nDft / dt| ≤ k / nDft / dt / 2 ^ 51 := by
  have hn' : (0 : ℝ) < nDft := by exact_mod_cast hn
  have hhalf : fl (1 / 2) = 1 / 2 := by
    have := h.fixed 1 (-1) (by norm_num)
    rw [show ((1 : ℤ) : ℝ) * 2 ^ (-1 : ℤ) = 1 / 2 by norm_num] at this
    exact this
  have bnd : ∀ k : Nat, (k : ℝ) / nDft / dt * (1 - 1 / 2 ^ 53) ^ 2 ≤ freqReal fl nDft dt k ∧ freqReal fl nDft dt k ≤ (k : ℝ) / nDft / dt * (1 + 1 / 2 ^ 53) ^ 2 :=
    fun k => two_rounds h _ _ dt (by positivity) hdt rfl
  refine ⟨by simp [freqReal, fl_zero h], fun j k hjk hk => ?_, fun k hk => ?_, fun he => ?_, fun k => ?_⟩
  · refine rounds_increasing (1 / nDft / dt) (by positivity) _ (fun k => ?_) j k hjk (by omega)
    have := bnd k
    rw [show (k : ℝ) / nDft / dt = 1 / nDft / dt * k by ring] at this
    exact this
  · refine h.mono (div_le_div_of_nonneg_right ?_ hdt.le)
    rw [← hhalf]
    refine h.mono ?_
    rw [div_le_div_iff₀ hn' (by norm_num)]
    have : k * 2 ≤ 1 * nDft := by omega
    exact_mod_cast this
  · unfold freqReal
    have : ((nDft / 2 : Nat) : ℝ) / nDft = 1 / 2 := by
      rw [div_eq_div_iff hn'.ne' (by norm_num)]
      have : nDft / 2 * 2 = 1 * nDft := by omega
      exact_mod_cast this
    rw [this, hhalf]
  · obtain ⟨b1, b2⟩ := bnd k
    set x := (k : ℝ) / nDft / dt with hx
    have hx0 : 0 ≤ x := by positivity
    rw [abs_le]
    constructor
    · have : (1 : ℝ) - 1 / 2 ^ 51 ≤ (1 - 1 / 2 ^ 53) ^ 2 := by norm_num
      have := mul_le_mul_of_nonneg_left this hx0
      linarith
    · have : (1 + 1 / 2 ^ 53) ^ 2 ≤ (1 : ℝ) + 1 / 2 ^ 51 := by norm_num
      have := mul_le_mul_of_nonneg_left this hx0
      linarith

/-- **C240.** The frequency axis of a full spectrum -/
theorem freqFull_axis {fl : ℝ → ℝ} (h : IsDouble fl) (nDft : Nat) (hn : 0 < nDft) (hn2 : nDft < 2 ^ 50) (dt : ℝ) (hdt : 0 < dt) :
    freqFull fl nDft dt 0 = 0 ∧ (∀ j k, j < k → k < nDft → freqFull fl nDft dt j < freqFull fl nDft dt k) ∧
    ∀ k : Nat, |freqFull fl nDft dt k - k / dt / nDft| ≤ k / dt / nDft / 2 ^ 51 := by
  have hn' : (0 : ℝ) < nDft := by exact_mod_cast hn
  have bnd : ∀ k : Nat, (k : ℝ) / dt / nDft * (1 - 1 / 2 ^ 53) ^ 2 ≤ freqFull fl nDft dt k ∧ freqFull fl nDft dt k ≤ (k : ℝ) / dt / nDft * (1 + 1 / 2 ^ 53) ^ 2 :=
    fun k => two_rounds h _ _ nDft (by positivity) hn' rfl
  refine ⟨by simp [freqFull, fl_zero h], fun j k hjk hk => ?_, fun k => ?_⟩
  · refine rounds_increasing (1 / dt / nDft) (by positivity) _ (fun k => ?_) j k hjk (by omega)
    have := bnd k
    rw [show (k : ℝ) / dt / nDft = 1 / dt / nDft * k by ring] at this
    exact this
  · obtain ⟨b1, b2⟩ := bnd k
    set x := (k : ℝ) / dt / nDft with hx
    have hx0 : 0 ≤ x := by positivity
    rw [abs_le]
    constructor
    · have : (1 : ℝ) - 1 / 2 ^ 51 ≤ (1 - 1 / 2 ^ 53) ^ 2 := by norm_num
      have := mul_le_mul_of_nonneg_left this hx0
      linarith
    · have : (1 + 1 / 2 ^ 53) ^ 2 ≤ (1 : ℝ) + 1 / 2 ^ 51 := by norm_num
      have := mul_le_mul_of_nonneg_left this hx0
      linarith

/-- ten thousand snapshots of a million values of 8 bytes on 64 ranks: four chunks -/
example : chunks rn 10000 (1000000 * 1) 8 64 = 4 := by rw [chunks_exact rn_double 10000 1000000 1 8 64 (by norm_num) (by norm_num)]; rfl

/-- half-overlapping blocks of 255 snapshots -/
example : overlap rn 255 (50 : Nat) = 128 := by
  rw [overlap_whole_partial rn_double 255 50 (by norm_num), Int.ceil_eq_iff]; norm_num

example : ceilDiv rn 7 3 = 3 := ceilDiv_exact rn_double 7 3 (by norm_num) (by norm_num)

end Verif.Props
