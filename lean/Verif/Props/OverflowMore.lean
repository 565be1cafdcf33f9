import Verif.Model.OverflowMore
import Verif.Props.Overflow
import Verif.Props.PodRounding
import Verif.Props.ModeRounding
/-
  C251 and C252: a POD fit and the modes of a SPOD fit do not overflow.
-/
namespace Verif.Props
open Verif Verif.Par Verif.Round Verif.Fit Verif.Spod Verif.Close Verif.Proj Finset

/-! ### A POD fit -/

/-- the largest number that can occur in the computation of the fluctuations of `nt` snapshots of magnitude at most `X` -/
noncomputable def fluctSize (u X : ℝ) (nt : Nat) : ℝ := (1 + u) ^ (nt + 3) * (2 * X * nt)

theorem fluctValue_le {u : ℝ} (hu : 0 ≤ u) (mk : Pod.MeanKind) (vals : List ℝ) (X : ℝ) (hX : ∀ x ∈ vals, |x| ≤ X) (t : Nat) (ht : t < vals.length) (v : ℝ)
    (h : FluctValue u mk vals t v) : |v| ≤ fluctSize u X vals.length := by
  unfold fluctSize
  obtain ⟨nt, hnt⟩ : ∃ nt, nt = vals.length := ⟨_, rfl⟩
  rw [← hnt]
  have hX0 : 0 ≤ X := (abs_nonneg _).trans (hX _ (List.getElem_mem (by omega : 0 < vals.length)))
  have hnt1 : (1 : ℝ) ≤ nt := by exact_mod_cast (by omega : 1 ≤ nt)
  have hval : |vals.getD t 0| ≤ X := by
    refine hX _ ?_
    rw [List.getD_eq_getElem _ _ ht]; exact List.getElem_mem _
  have k0 : 0 ≤ (nt : ℝ) * X := mul_nonneg (by linarith) hX0
  have k1 : (nt : ℝ) * X ≤ 2 * X * nt := by linarith [mul_comm (nt : ℝ) X]
  have k2 : X ≤ nt * X := by linarith [mul_le_mul_of_nonneg_right hnt1 hX0]
  have hm : ∀ m0, MeanValue u vals m0 → |m0| ≤ (1 + u) ^ (nt + 1) * (nt * X) := fun m0 h => meanValue_le hu vals X hX nt hnt.ge hX0 m0 h
  have hm2 : ∀ m0 m, FlMean u vals m0 → Rounds u m0 m → |m| ≤ (1 + u) ^ (nt + 2) * (nt * X) := fun m0 m h1 h2 => by
    calc |m| ≤ (1 + u) * ((1 + u) ^ (nt + 1) * (nt * X)) := (rounds_size h2).trans (mul_le_mul_of_nonneg_left (hm m0 (Or.inr h1)) (by linarith))
      _ = _ := by rw [pow_succ _ (nt + 1)]; ring
  have hx : ∀ x, Rounds u (vals.getD t 0) x → |x| ≤ (1 + u) * X := fun x h => (rounds_size h).trans (mul_le_mul_of_nonneg_left hval (by linarith))
  have e1 : ∀ a, |a| ≤ (1 + u) * X → |a| ≤ (1 + u) ^ (nt + 2) * (nt * X) := fun a ha => by
    rw [← pow_one (1 + u)] at ha
    exact ha.trans (mulpow hu (by omega) hX0 k2)
  have e2 : ∀ a, |a| ≤ (1 + u) ^ (nt + 2) * (nt * X) → |a| ≤ (1 + u) ^ (nt + 3) * (2 * X * nt) := fun a ha => ha.trans (mulpow hu (by omega) k0 k1)
  rcases h with ⟨-, h | ⟨m0, h1, h2⟩⟩ | h | h
  · exact e2 _ ((hm v h).trans (mulpow hu (by omega) k0 le_rfl))
  · exact e2 _ (hm2 m0 v h1 h2)
  · exact e2 _ (e1 _ (hx v h))
  · cases mk with
    | longtime =>
      obtain ⟨m0, m, x, h1, h2, h3, h4⟩ := h
      have g1 := hm2 m0 m h1 h2
      have g2 := e1 _ (hx x h3)
      have g3 := rounds_size h4
      have g4 : |x - m| ≤ (1 + u) ^ (nt + 2) * (2 * X * nt) := by
        have e : (1 + u) ^ (nt + 2) * (2 * X * nt) = (1 + u) ^ (nt + 2) * (nt * X) + (1 + u) ^ (nt + 2) * (nt * X) := by ring
        rw [e]
        exact (abs_sub x m).trans (add_le_add g2 g1)
      calc |v| ≤ (1 + u) * ((1 + u) ^ (nt + 2) * (2 * X * nt)) := g3.trans (mul_le_mul_of_nonneg_left g4 (by linarith))
        _ = _ := by rw [pow_succ _ (nt + 2)]; ring
    | zero =>
      obtain ⟨x, h1, h2⟩ := h
      rw [sub_zero] at h2
      have g : |v| ≤ (1 + u) ^ 2 * X := by
        calc |v| ≤ (1 + u) * ((1 + u) * X) := (rounds_size h2).trans (mul_le_mul_of_nonneg_left (hx x h1) (by linarith))
          _ = _ := by ring
      exact g.trans (mulpow hu (by omega) hX0 (k2.trans k1))

theorem corrLocalValue_le {u : ℝ} (hu : 0 ≤ u) (d : Nat → Arr ℝ) (w : Arr ℝ) (B W : ℝ) (hB : 0 ≤ B) (hW : 0 ≤ W)
    (hw : ∀ idx, InRange w.shape idx → |w.at' idx| ≤ W) (i j : Nat) (hd : ∀ b, b = i ∨ b = j → ∀ idx, InRange w.shape idx → |(d b).at' idx| ≤ B)
    (n : Nat) (hn : size w.shape ≤ n) (v : ℝ) (h : CorrLocalValue u d w i j v) : |v| ≤ (1 + u) ^ (n + 2) * (B * W + n * (B * (B * W))) := by
  have hBW : 0 ≤ B * W := mul_nonneg hB hW
  have hBBW : 0 ≤ (n : ℝ) * (B * (B * W)) := mul_nonneg (by positivity) (mul_nonneg hB hBW)
  have hq : ∀ k < size w.shape, ∀ y : ℝ, Rounds u ((d j).at' (unravel w.shape k) * w.at' (unravel w.shape k)) y → |y| ≤ (1 + u) * (B * W) := fun k hk y hy => by
    have := rounds_size hy
    rw [abs_mul] at this
    exact this.trans (mul_le_mul_of_nonneg_left (mul_le_mul (hd j (Or.inr rfl) _ (inRange_unravel hk)) (hw _ (inRange_unravel hk)) (abs_nonneg _) hB) (by linarith))
  rcases h with ⟨k, hk, h⟩ | ⟨x, h1, h2⟩
  · have g := hq k hk v h
    rw [← pow_one (1 + u)] at g
    exact g.trans (mulpow hu (by omega) hBW (by linarith))
  · have g := dotValue_le hu _ B ((1 + u) * (B * W)) hB (mul_nonneg (by linarith) hBW) (by
      intro p hp
      obtain ⟨k, hk, rfl⟩ := List.mem_map.1 hp
      have hk := List.mem_range.1 hk
      exact ⟨hd i (Or.inl rfl) _ (inRange_unravel hk), hq k hk _ (h1 k hk)⟩) n (by simpa using hn) v h2
    have e : (1 + u) ^ (n + 1) * (n * (B * ((1 + u) * (B * W)))) = (1 + u) ^ (n + 2) * (n * (B * (B * W))) := by
      rw [pow_succ _ (n + 1)]; ring
    rw [e] at g
    exact g.trans (mulpow hu le_rfl hBBW (by linarith))

/-- the largest number that can occur in the computation of the matrix: fluctuations of at most `B`, weights of at most `W`, at most `n` points on each of `R` ranks -/
noncomputable def corrSize (u B W : ℝ) (n R : Nat) : ℝ := (1 + u) ^ (n + 2 + R) * (R * (B * W + n * (B * (B * W))))

theorem corrValue_le {u : ℝ} (hu : 0 ≤ u) (comms : List Comm) (ax : Nat) (d : Nat → Arr ℝ) (w : Arr ℝ) (hax : ax < w.shape.length) (B W : ℝ) (hB : 0 ≤ B) (hW : 0 ≤ W)
    (hw : ∀ idx, InRange w.shape idx → |w.at' idx| ≤ W) (i j : Nat) (hs : ∀ b, (d b).shape = w.shape)
    (hd : ∀ b, b = i ∨ b = j → ∀ idx, InRange w.shape idx → |(d b).at' idx| ≤ B)
    (n : Nat) (hn : ∀ comm ∈ comms, size (distributeDimension w ax comm).shape ≤ n) (v : ℝ) (h : CorrValue u comms ax d w i j v) : |v| ≤ corrSize u B W n comms.length := by
  obtain ⟨Y, hY⟩ : ∃ Y, Y = B * W + n * (B * (B * W)) := ⟨_, rfl⟩
  have hY0 : 0 ≤ Y := by rw [hY]; positivity
  have hsl : ∀ (a : Arr ℝ) (K : ℝ), a.shape = w.shape → (∀ idx, InRange w.shape idx → |a.at' idx| ≤ K) → ∀ comm idx, InRange (distributeDimension w ax comm).shape idx →
      |(distributeDimension a ax comm).at' idx| ≤ K := fun a K ha hK comm idx hi => by
    have hsh : (distributeDimension w ax comm).shape = (distributeDimension (⟨w.shape, fun idx => |a.at' idx|⟩ : Arr ℝ) ax comm).shape := by cases comm <;> rfl
    have k := slab_le (⟨w.shape, fun idx => |a.at' idx|⟩ : Arr ℝ) K hK ax hax comm idx (by rw [← hsh]; exact hi)
    have e : (distributeDimension (⟨w.shape, fun idx => |a.at' idx|⟩ : Arr ℝ) ax comm).at' idx = |(distributeDimension a ax comm).at' idx| := by
      rw [← ha]; cases comm <;> rfl
    rwa [e] at k
  have hl : ∀ comm ∈ comms, ∀ v, CorrLocalValue u (fun b => distributeDimension (d b) ax comm) (distributeDimension w ax comm) i j v → |v| ≤ (1 + u) ^ (n + 2) * Y := by
    intro comm hc v hv
    rw [hY]
    exact corrLocalValue_le hu _ _ B W hB hW (fun idx hi => hsl w W rfl hw comm idx hi) i j (fun b hb idx hi => hsl (d b) B (hs b) (hd b hb) comm idx hi) n (hn comm hc) v hv
  have hp : 0 ≤ (1 + u) ^ (n + 2) * Y := mul_nonneg (pow_nonneg (by linarith) _) hY0
  rw [corrSize, ← hY]
  rcases h with ⟨comm, hc, h⟩ | ⟨ls, h1, h2⟩
  · have h0 : 1 ≤ comms.length := List.length_pos_of_mem hc
    have h1 : (1 : ℝ) ≤ comms.length := by exact_mod_cast h0
    exact (hl comm hc v h).trans (mulpow hu (by omega) hY0 (by linarith [mul_le_mul_of_nonneg_right h1 hY0]))
  · have e : (1 + u) ^ comms.length * (comms.length * ((1 + u) ^ (n + 2) * Y)) = (1 + u) ^ (n + 2 + comms.length) * (comms.length * Y) := by
      rw [pow_add]; ring
    rw [← e]
    refine sumValue_le hu ls _ (fun a ha => ?_) _ (by rw [h1.length_eq]) hp v h2
    obtain ⟨k, hk, rfl⟩ := List.getElem_of_mem ha
    have hlen := h1.length_eq
    obtain ⟨x, g1, g2⟩ := List.Forall₂.get h1 (by omega : k < comms.length) hk
    rcases flDot_value _ _ g2 with g | g
    · change |ls.get ⟨k, hk⟩| ≤ _
      rw [g, abs_zero]; exact hp
    · exact hl _ (List.getElem_mem _) _ (Or.inr ⟨x, g1, g⟩)

/-- **C251.** A POD fit of data of magnitude at most `X` with weights of magnitude at most `Wt`: if the two sizes are not above the largest number `Ω`, then no value that occurs in the
    computation of the fluctuations and of the matrix, on one process or on `p` ranks, in any order of the additions, is above `Ω` in magnitude. -/
theorem pod_no_overflow (files : List (List (Arr ℝ))) (dims : List Nat) (mk : Pod.MeanKind) (u : ℝ) (hu : 0 ≤ u) (X : ℝ) (hX0 : 0 ≤ X)
    (hX : ∀ t < files.flatten.length, ∀ x < size (dims ++ [1]), |podAt files t x| ≤ X)
    (W : Arr ℝ) (hW : W.shape = dims ++ [1]) (Wt : ℝ) (hWt0 : 0 ≤ Wt) (hWt : ∀ idx, InRange W.shape idx → |W.at' idx| ≤ Wt)
    (comms : List Comm) (ax : Nat) (hax : ax ≤ dims.length) (N : Nat) (hN : ∀ comm ∈ comms, size (distributeDimension W ax comm).shape ≤ N)
    (Ω : ℝ) (h1 : fluctSize u X files.flatten.length ≤ Ω) (h2 : corrSize u (fluctSize u X files.flatten.length) Wt N comms.length ≤ Ω) :
    (∀ t < files.flatten.length, ∀ x < size (dims ++ [1]), ∀ v,
      FluctValue u mk ((List.range files.flatten.length).map fun t' => podAt files t' x) t v → |v| ≤ Ω) ∧
    ∀ dh : Nat → Arr ℝ, (∀ t, (dh t).shape = dims ++ [1]) → (∀ t < files.flatten.length, ∀ x < size (dims ++ [1]),
        FlFluct u mk ((List.range files.flatten.length).map fun t' => podAt files t' x) t ((dh t).at' (unravel (dims ++ [1]) x))) →
      ∀ i < files.flatten.length, ∀ j < files.flatten.length, ∀ v, CorrValue u comms ax dh W i j v → |v| ≤ Ω := by
  have key : ∀ t < files.flatten.length, ∀ x < size (dims ++ [1]), ∀ v,
      FluctValue u mk ((List.range files.flatten.length).map fun t' => podAt files t' x) t v → |v| ≤ fluctSize u X files.flatten.length := by
    intro t ht x hx v hv
    have := fluctValue_le hu mk ((List.range files.flatten.length).map fun t' => podAt files t' x) X (by
      intro y hy
      obtain ⟨t', ht', rfl⟩ := List.mem_map.1 hy
      exact hX t' (List.mem_range.1 ht') x hx) t (by simpa using ht) v hv
    rwa [List.length_map, List.length_range] at this
  refine ⟨fun t ht x hx v hv => (key t ht x hx v hv).trans h1, fun dh hs hd i hi j hj v hv => ?_⟩
  have hB : 0 ≤ fluctSize u X files.flatten.length := by unfold fluctSize; positivity
  refine (corrValue_le hu comms ax dh W (by rw [hW]; simpa using Nat.lt_succ_of_le hax) _ Wt hB hWt0 hWt i j (fun b => (hs b).trans hW.symm) (fun b hb idx hidx => ?_) N hN v hv).trans h2
  have hb' : b < files.flatten.length := by rcases hb with rfl | rfl <;> assumption
  rw [hW] at hidx
  have g := hd b hb' (ravel (dims ++ [1]) idx) (ravel_lt hidx)
  rw [unravel_ravel hidx] at g
  exact key b hb' _ (ravel_lt hidx) _ (Or.inr (Or.inr g))

/-! ### Modes -/

theorem rounds_low {u x y : ℝ} (h : Rounds u x y) (hx : 0 ≤ x) : (1 - u) * x ≤ y := by
  unfold Rounds at h
  rw [abs_of_nonneg hx] at h
  linarith [(abs_le.1 h).1]

/-- the largest number that can occur in the computation of the factor of a mode, for eigenvalues between `μ` and `Λ` -/
noncomputable def factorSize (u : ℝ) (nb : Nat) (μ Λ : ℝ) : ℝ :=
  (1 + u) ^ 3 * (Real.sqrt nb + Real.sqrt Λ + Real.sqrt nb * Real.sqrt Λ) + (1 + u) / ((1 - u) ^ 3 * (Real.sqrt nb * Real.sqrt μ))

theorem factorValue_le {u : ℝ} (hu : 0 ≤ u) (hu1 : u < 1) (nb : Nat) (hnb : 0 < nb) (μ Λ : ℝ) (hμ : 0 < μ) (lam : ℝ) (h1 : μ ≤ lam) (h2 : lam ≤ Λ) (v : ℝ) (h : FactorValue u nb lam v) :
    |v| ≤ factorSize u nb μ Λ := by
  obtain ⟨a, b, c, ha, hb, hc, hv⟩ := h
  obtain ⟨p, hp⟩ : ∃ p, p = Real.sqrt nb := ⟨_, rfl⟩
  obtain ⟨q, hq⟩ : ∃ q, q = Real.sqrt lam := ⟨_, rfl⟩
  obtain ⟨r, hr⟩ : ∃ r, r = Real.sqrt Λ := ⟨_, rfl⟩
  obtain ⟨s, hs⟩ : ∃ s, s = Real.sqrt μ := ⟨_, rfl⟩
  have hp0 : 0 < p := by rw [hp]; exact Real.sqrt_pos.2 (by exact_mod_cast hnb)
  have hs0 : 0 < s := by rw [hs]; exact Real.sqrt_pos.2 hμ
  have hsq : s ≤ q := by rw [hs, hq]; exact Real.sqrt_le_sqrt h1
  have hqr : q ≤ r := by rw [hq, hr]; exact Real.sqrt_le_sqrt h2
  have hq0 : 0 < q := hs0.trans_le hsq
  have hr0 : 0 < r := hq0.trans_le hqr
  rw [← hp] at ha
  rw [← hq] at hb
  have hu' : 0 < 1 - u := by linarith
  have la := rounds_low ha hp0.le
  have lb := rounds_low hb hq0.le
  have ha0 : 0 < a := (mul_pos hu' hp0).trans_le la
  have hb0 : 0 < b := (mul_pos hu' hq0).trans_le lb
  have lc := rounds_low hc (mul_pos ha0 hb0).le
  have ua := rounds_size ha
  have ub := rounds_size hb
  have uc := rounds_size hc
  rw [abs_of_pos ha0, abs_of_pos hp0] at ua
  rw [abs_of_pos hb0, abs_of_pos hq0] at ub
  rw [abs_of_pos (mul_pos ha0 hb0)] at uc
  have hab : a * b ≤ (1 + u) ^ 2 * (p * r) := by
    calc a * b ≤ (1 + u) * p * ((1 + u) * r) := mul_le_mul ua (ub.trans (mul_le_mul_of_nonneg_left hqr (by linarith))) hb0.le (by positivity)
      _ = _ := by ring
  have hab2 : (1 - u) ^ 2 * (p * s) ≤ a * b := by
    calc (1 - u) ^ 2 * (p * s) = (1 - u) * p * ((1 - u) * s) := by ring
      _ ≤ a * b := mul_le_mul la ((mul_le_mul_of_nonneg_left hsq hu'.le).trans lb) (by positivity) ha0.le
  have hclow : (1 - u) ^ 3 * (p * s) ≤ c := by
    calc (1 - u) ^ 3 * (p * s) = (1 - u) * ((1 - u) ^ 2 * (p * s)) := by ring
      _ ≤ (1 - u) * (a * b) := mul_le_mul_of_nonneg_left hab2 hu'.le
      _ ≤ c := lc
  have hD : 0 < (1 - u) ^ 3 * (p * s) := by positivity
  have hc0 : 0 < c := hD.trans_le hclow
  have hchigh : |c| ≤ (1 + u) ^ 3 * (p * r) := by
    calc |c| ≤ (1 + u) * ((1 + u) ^ 2 * (p * r)) := uc.trans (mul_le_mul_of_nonneg_left hab (by linarith))
      _ = _ := by ring
  have hE : 0 ≤ (1 + u) / ((1 - u) ^ 3 * (p * s)) := div_nonneg (by linarith) hD.le
  have hone : (1 + u) ≤ (1 + u) ^ 3 := le_self_pow₀ (by linarith) (by norm_num)
  have x1 : (1 + u) * p ≤ (1 + u) ^ 3 * p := mul_le_mul_of_nonneg_right hone hp0.le
  have x2 : (1 + u) * q ≤ (1 + u) ^ 3 * r := mul_le_mul hone hqr hq0.le (by positivity)
  have y1 : 0 ≤ (1 + u) ^ 3 * p := by positivity
  have y2 : 0 ≤ (1 + u) ^ 3 * r := by positivity
  have y3 : 0 ≤ (1 + u) ^ 3 * (p * r) := by positivity
  have e : factorSize u nb μ Λ = (1 + u) ^ 3 * p + (1 + u) ^ 3 * r + (1 + u) ^ 3 * (p * r) + (1 + u) / ((1 - u) ^ 3 * (p * s)) := by
    rw [factorSize, ← hp, ← hr, ← hs]; ring
  rw [e]
  rcases hv with rfl | rfl | rfl | hv
  · rw [abs_of_pos ha0]; linarith
  · rw [abs_of_pos hb0]; linarith
  · linarith
  · have g := rounds_size hv
    rw [abs_of_pos (one_div_pos.2 hc0)] at g
    have : (1 + u) * (1 / c) ≤ (1 + u) / ((1 - u) ^ 3 * (p * s)) := by
      rw [mul_one_div]
      exact div_le_div_of_nonneg_left (by linarith) hD hclow
    linarith

/-- the largest number that can occur in the computation of a mode at a point: coefficients whose parts are at most `B`, eigenvectors with parts of at most `V`, a factor of at most `F` -/
noncomputable def modeSize (u B V F : ℝ) (nb : Nat) : ℝ := (1 + u) ^ (2 * nb + 2) * (V * F + 2 * nb * (B * (V * F)))

theorem modeValue_le {u : ℝ} (hu : 0 ≤ u) {nb : Nat} (q v : Fin nb → ℂ) (l B V F : ℝ) (hB : 0 ≤ B) (hV : 0 ≤ V) (hF : |l| ≤ F) (hq : ∀ b, |(q b).re| ≤ B ∧ |(q b).im| ≤ B)
    (hv : ∀ b, |(v b).re| ≤ V ∧ |(v b).im| ≤ V) (z : ℝ) (h : ModeValue u q v l z) : |z| ≤ modeSize u B V F nb := by
  have hF0 : 0 ≤ F := (abs_nonneg _).trans hF
  have hVF : 0 ≤ V * F := mul_nonneg hV hF0
  have hB2 : 0 ≤ 2 * (nb : ℝ) * (B * (V * F)) := by positivity
  have hx : ∀ x y : ℝ, |x| ≤ V → Rounds u (x * l) y → |y| ≤ (1 + u) * (V * F) := fun x y hx hy => by
    have := rounds_size hy
    rw [abs_mul] at this
    exact this.trans (mul_le_mul_of_nonneg_left (mul_le_mul hx hF (abs_nonneg _) hV) (by linarith))
  unfold modeSize
  rcases h with ⟨b, h⟩ | ⟨a, h1, h2⟩
  · have g : |z| ≤ (1 + u) * (V * F) := by
      rcases h with h | h
      · exact hx _ _ (hv b).1 h
      · exact hx _ _ (hv b).2 h
    rw [← pow_one (1 + u)] at g
    exact g.trans (mulpow hu (by omega) hVF (by linarith))
  · have ha : ∀ b, |(a b).re| ≤ (1 + u) * (V * F) ∧ |(a b).im| ≤ (1 + u) * (V * F) := fun b => ⟨hx _ _ (hv b).1 (h1 b).1, hx _ _ (hv b).2 (h1 b).2⟩
    have hC : 0 ≤ (1 + u) * (V * F) := mul_nonneg (by linarith) hVF
    have e : (1 + u) ^ (2 * nb + 1) * (((2 * nb : Nat) : ℝ) * (B * ((1 + u) * (V * F)))) = (1 + u) ^ (2 * nb + 2) * (2 * nb * (B * (V * F))) := by
      push_cast; rw [pow_succ _ (2 * nb + 1)]; ring
    have hd : ∀ ps : List (ℝ × ℝ), ps.length ≤ 2 * nb → (∀ p ∈ ps, |p.1| ≤ B ∧ |p.2| ≤ (1 + u) * (V * F)) → DotValue u ps z →
        |z| ≤ (1 + u) ^ (2 * nb + 2) * (V * F + 2 * nb * (B * (V * F))) := fun ps hl hp h => by
      have g := dotValue_le hu ps B _ hB hC hp (2 * nb) hl z h
      rw [e] at g
      exact g.trans (mulpow hu le_rfl hB2 (by linarith))
    rcases h2 with h2 | h2
    · refine hd _ (by simp [List.length_flatMap, mul_comm]) (fun p hp => ?_) h2
      obtain ⟨b, -, hp⟩ := List.mem_flatMap.1 hp
      simp only [List.mem_cons, List.not_mem_nil, or_false] at hp
      rcases hp with rfl | rfl
      · exact ⟨(hq b).1, (ha b).1⟩
      · exact ⟨by rw [abs_neg]; exact (hq b).2, (ha b).2⟩
    · refine hd _ (by simp [List.length_flatMap, mul_comm]) (fun p hp => ?_) h2
      obtain ⟨b, -, hp⟩ := List.mem_flatMap.1 hp
      simp only [List.mem_cons, List.not_mem_nil, or_false] at hp
      rcases hp with rfl | rfl
      · exact ⟨(hq b).1, (ha b).2⟩
      · exact ⟨(hq b).2, (ha b).1⟩

/-- **C252.** The modes of a SPOD fit of data of magnitude at most `X`, for eigenvalues between `μ > 0` and `Λ` and eigenvectors of norm at most `V`: if the two sizes are not above the
    largest number `Ω`, then no value that occurs in the computation of the factors and of the modes is above `Ω` in magnitude. -/
theorem modes_no_overflow (c : Cfg) (ω : ℂ) (hω : ‖ω‖ = 1) (files : List (List (Arr ℝ))) (w : Arr ℝ) (m : MeanType) (A : Accepted c files w m)
    (W : ℝ) (hW : ∀ x ∈ c.win, 0 ≤ x ∧ x ≤ W) (hwp : 0 < c.win.sum)
    (u : ℝ) (hu : 0 ≤ u) (hlt : (1 + u) ^ c.nDft < 2) (γ : ℝ) (hγ : 0 ≤ γ) (X : ℝ) (hX : ∀ a ∈ files.flatten, ∀ idx, InRange w.shape idx → |a.at' idx| ≤ X) (hX0 : 0 ≤ X)
    (μ Λ : ℝ) (hμ : 0 < μ) (V : ℝ) (hV : 0 ≤ V) (Ω : ℝ) (h1 : factorSize u (fitNb c files.flatten.length) μ Λ ≤ Ω)
    (h2 : modeSize u (hatSize u γ X W c.win.sum files.flatten.length c.nDft) V (factorSize u (fitNb c files.flatten.length) μ Λ) (fitNb c files.flatten.length) ≤ Ω)
    (lam : ℝ) (hl : μ ≤ lam ∧ lam ≤ Λ) :
    (∀ v, FactorValue u (fitNb c files.flatten.length) lam v → |v| ≤ Ω) ∧
    ∀ l, FlFactor u (fitNb c files.flatten.length) lam l → ∀ v : EuclideanSpace ℂ (Fin (fitNb c files.flatten.length)), ‖v‖ ≤ V →
      ∀ f idx, InRange w.shape idx → ∀ q : Fin (fitNb c files.flatten.length) → ℂ, (∀ b : Fin (fitNb c files.flatten.length), FlHat u γ c m ω (files.flatten.map fun a => a.at' idx) f b (q b)) →
      ∀ z, ModeValue u q v.ofLp l z → |z| ≤ Ω := by
  have hnd : 0 < c.nDft := by have := (feasible_nb c _ A.blocks).2; omega
  have hnb : 0 < fitNb c files.flatten.length := by have := (feasible_nb c _ A.blocks).1; omega
  have hu1 : u < 1 := by
    have : 1 + u ≤ (1 + u) ^ c.nDft := le_self_pow₀ (by linarith) hnd.ne'
    linarith
  have hfac : ∀ v, FactorValue u (fitNb c files.flatten.length) lam v → |v| ≤ factorSize u (fitNb c files.flatten.length) μ Λ :=
    fun v hv => factorValue_le hu hu1 _ hnb μ Λ hμ lam hl.1 hl.2 v hv
  refine ⟨fun v hv => (hfac v hv).trans h1, fun l hl' v hv f idx hi q hq z hz => ?_⟩
  have hW0 : 0 ≤ W := by
    have := hW _ (List.getElem_mem (by rw [A.window]; exact hnd : 0 < c.win.length))
    linarith [this.1, this.2]
  have hB : 0 ≤ hatSize u γ X W c.win.sum files.flatten.length c.nDft := by
    have : 0 < c.win.sum * (2 - (1 + u) ^ c.nDft) := mul_pos hwp (by linarith)
    unfold hatSize
    positivity
  have hhat : ∀ b : Fin (fitNb c files.flatten.length), ∀ x, HatValue u γ c m ω (files.flatten.map fun a => a.at' idx) f b x → |x| ≤ hatSize u γ X W c.win.sum files.flatten.length c.nDft := by
    intro b x hx
    have := hatValue_le hu hu1.le γ hγ c m ω hω (files.flatten.map fun a => a.at' idx) X (by
      intro x hx
      obtain ⟨a, ha, rfl⟩ := List.mem_map.1 hx
      exact hX a ha idx hi) hnd A.overlap A.window W hW hwp hlt f b (by rw [List.length_map]; exact b.2) x hx
    rwa [List.length_map] at this
  obtain ⟨a, b, d, g1, g2, g3, g4⟩ := hl'
  refine (modeValue_le hu q v.ofLp l _ V _ hB hV (hfac l ⟨a, b, d, g1, g2, g3, Or.inr (Or.inr (Or.inr g4))⟩) (fun b => ⟨?_, ?_⟩) (fun b => ?_) z hz).trans h2
  · exact hhat b _ (Or.inr (Or.inr (Or.inr (Or.inr (Or.inr ⟨_, hq b, Or.inl rfl⟩)))))
  · exact hhat b _ (Or.inr (Or.inr (Or.inr (Or.inr (Or.inr ⟨_, hq b, Or.inr rfl⟩)))))
  · have := (PiLp.norm_apply_le v b).trans hv
    exact ⟨(Complex.abs_re_le_norm _).trans this, (Complex.abs_im_le_norm _).trans this⟩

/-- **C252.** A positive eigenvalue does not suffice: whatever the largest number `Ω` is, the factor of a mode goes above it for some positive eigenvalue. -/
theorem positive_eigenvalue_overflow (u Ω : ℝ) (hu : 0 ≤ u) (hΩ : 0 < Ω) (nb : Nat) (hnb : 0 < nb) : ∃ lam > 0, ∃ v, FactorValue u nb lam v ∧ Ω < |v| := by
  have hp : 0 < Real.sqrt nb := Real.sqrt_pos.2 (by exact_mod_cast hnb)
  have hd : 0 < 1 / (2 * Ω * Real.sqrt nb) := by positivity
  refine ⟨(1 / (2 * Ω * Real.sqrt nb)) ^ 2, by positivity, 2 * Ω, ⟨_, _, _, rounds_exact hu _, rounds_exact hu _, rounds_exact hu _, Or.inr (Or.inr (Or.inr ?_))⟩, ?_⟩
  · rw [Real.sqrt_sq hd.le]
    have : 1 / (Real.sqrt nb * (1 / (2 * Ω * Real.sqrt nb))) = 2 * Ω := by field_simp
    rw [this]
    exact rounds_exact hu _
  · rw [abs_of_pos (by linarith)]; linarith

/-! ### Cases -/

/-- double precision, ten thousand snapshots of magnitude at most `10^60`, a million points with weights at most ten on each of a hundred ranks -/
example : fluctSize (1 / 2 ^ 53) (10 ^ 60) 10000 ≤ 10 ^ 65 := by
  have h := pow_near (u := 1 / 2 ^ 53) (by norm_num) (10000 + 3) (by norm_num)
  have h2 : (1 + 1 / 2 ^ 53 : ℝ) ^ (10000 + 3) ≤ 2 := by
    refine le_trans (by linarith : _ ≤ 1 + 1.02 * (((10000 + 3 : Nat) : ℝ) * (1 / 2 ^ 53))) (by norm_num)
  unfold fluctSize
  refine (mul_le_mul_of_nonneg_right h2 (by norm_num)).trans (by norm_num)

example (B : ℝ) (hB0 : 0 ≤ B) (hB : B ≤ 10 ^ 65) : corrSize (1 / 2 ^ 53) B 10 1000000 100 ≤ 10 ^ 200 := by
  have h1 := pow_near (u := 1 / 2 ^ 53) (by norm_num) (1000000 + 2 + 100) (by norm_num)
  have h2 : (1 + 1 / 2 ^ 53 : ℝ) ^ (1000000 + 2 + 100) ≤ 2 := by
    refine le_trans (by linarith : _ ≤ 1 + 1.02 * (((1000000 + 2 + 100 : Nat) : ℝ) * (1 / 2 ^ 53))) (by norm_num)
  unfold corrSize
  have h3 : B * (B * 10) ≤ 10 ^ 65 * (10 ^ 65 * 10) := mul_le_mul hB (mul_le_mul_of_nonneg_right hB (by norm_num)) (by positivity) (by norm_num)
  have h4 : ((100 : Nat) : ℝ) * (B * 10 + ((1000000 : Nat) : ℝ) * (B * (B * 10))) ≤ 10 ^ 140 := by
    norm_num at h3 hB ⊢
    linarith
  calc _ ≤ 2 * (10 : ℝ) ^ 140 := mul_le_mul h2 h4 (by positivity) (by norm_num)
    _ ≤ _ := by norm_num

/-- `pod_no_overflow` for the snapshots `(1, 2), (3, 4)` on two ranks, in double precision -/
example (Ω : ℝ) (h1 : fluctSize (1 / 2 ^ 53) 4 2 ≤ Ω) (h2 : corrSize (1 / 2 ^ 53) (fluctSize (1 / 2 ^ 53) 4 2) 1 1 2 ≤ Ω) :=
  pod_no_overflow (podPair 1 2 3 4) [2] .longtime (1 / 2 ^ 53) (by norm_num) 4 (by norm_num) (podPair_all (by simp only [podPair_at]; norm_num) 1 2 3 4) ⟨[2, 1], fun _ => 1⟩ rfl 1
    zero_le_one (fun _ _ => by simp) (ranksOf 2) 0 (by simp) 1 (by decide) Ω h1 h2

/-- double precision, a hundred blocks: as small as the smallest positive number an eigenvalue may be -/
example : factorSize (1 / 2 ^ 53) 100 ((1 / 10 ^ 162) ^ 2) ((10 ^ 100) ^ 2) ≤ 10 ^ 163 := by
  have h1 : Real.sqrt ((100 : Nat) : ℝ) = 10 := by
    rw [show ((100 : Nat) : ℝ) = 10 ^ 2 by norm_num, Real.sqrt_sq (by norm_num)]
  rw [factorSize, h1, Real.sqrt_sq (by positivity), Real.sqrt_sq (by positivity)]
  norm_num

/-- and for coefficients of at most `10^65` the modes are below the largest number -/
example (F : ℝ) (hF0 : 0 ≤ F) (hF : F ≤ 10 ^ 163) (B : ℝ) (hB0 : 0 ≤ B) (hB : B ≤ 10 ^ 65) : modeSize (1 / 2 ^ 53) B 2 F 100 ≤ 10 ^ 240 := by
  have h1 := pow_near (u := 1 / 2 ^ 53) (by norm_num) (2 * 100 + 2) (by norm_num)
  have h2 : (1 + 1 / 2 ^ 53 : ℝ) ^ (2 * 100 + 2) ≤ 2 := by
    refine le_trans (by linarith : _ ≤ 1 + 1.02 * (((2 * 100 + 2 : Nat) : ℝ) * (1 / 2 ^ 53))) (by norm_num)
  unfold modeSize
  have h3 : B * (2 * F) ≤ 10 ^ 65 * (2 * 10 ^ 163) := mul_le_mul hB (mul_le_mul_of_nonneg_left hF (by norm_num)) (by positivity) (by norm_num)
  have h4 : 2 * F + 2 * ((100 : Nat) : ℝ) * (B * (2 * F)) ≤ 10 ^ 235 := by
    norm_num at h3 hF ⊢
    linarith
  calc _ ≤ 2 * (10 : ℝ) ^ 235 := mul_le_mul h2 h4 (by positivity) (by norm_num)
    _ ≤ _ := by norm_num

/-- `modes_no_overflow` applies: two points, eight snapshots of magnitude at most one, two blocks of four, single precision -/
example (l : List ℝ) (hl : l.length = 8) (hX : ∀ a ∈ (series l).flatten, ∀ idx, InRange [2] idx → |a.at' idx| ≤ 1) (Ω lam : ℝ) (hlam : 1 / 10 ^ 30 ≤ lam ∧ lam ≤ 10 ^ 30)
    (h1 : factorSize (1 / 2 ^ 24) (fitNb calmCfg (series l).flatten.length) (1 / 10 ^ 30) (10 ^ 30) ≤ Ω)
    (h2 : modeSize (1 / 2 ^ 24) (hatSize (1 / 2 ^ 24) (1 / 10 ^ 5) 1 2 calmCfg.win.sum (series l).flatten.length calmCfg.nDft) 1
      (factorSize (1 / 2 ^ 24) (fitNb calmCfg (series l).flatten.length) (1 / 10 ^ 30) (10 ^ 30)) (fitNb calmCfg (series l).flatten.length) ≤ Ω) :=
  modes_no_overflow calmCfg (-Complex.I) (by simp) (series l) ⟨[2], fun _ => 1⟩ .blockwise (calm_any l hl.ge 1 zero_le_one) 2
    (by norm_num [calmCfg, shortCfg]) (by norm_num [calmCfg, shortCfg]) (1 / 2 ^ 24) (by norm_num) (by norm_num [calmCfg, shortCfg])
    (1 / 10 ^ 5) (by norm_num) 1 hX zero_le_one (1 / 10 ^ 30) (10 ^ 30) (by norm_num) 1 zero_le_one Ω h1 h2 lam hlam

end Verif.Props
