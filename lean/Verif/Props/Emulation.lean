import Verif.Model.Emulation
import Mathlib.Data.List.GetD
import Mathlib.Data.Rat.Defs
import Mathlib.Algebra.Order.Ring.Rat
import Mathlib.Tactic.Linarith
import Mathlib.Tactic.FieldSimp
import Mathlib.Tactic.NormNum
/-
  C54-C56: emulation (scaling, training sequences, inference).
-/
set_option linter.unusedSectionVars false
set_option linter.unusedVariables false
namespace Verif.Props
open Verif Verif.Emu

section Scaling
variable {K : Type} [Field K] [LinearOrder K] [IsStrictOrderedRing K]

theorem foldl_max_spec (l : List K) (a : K) :
    (∀ x ∈ a :: l, x ≤ l.foldl max a) ∧ l.foldl max a ∈ a :: l := by
  induction l generalizing a with
  | nil => simp
  | cons b l ih =>
    simp only [List.foldl_cons]
    have := ih (max a b)
    constructor
    · intro x hx
      have hm := this.1 (max a b) (by simp)
      simp only [List.mem_cons] at hx
      rcases hx with rfl | rfl | hx
      · exact le_trans (le_max_left _ _) hm
      · exact le_trans (le_max_right _ _) hm
      · exact this.1 x (by simp [hx])
    · have h2 := this.2
      simp only [List.mem_cons] at h2 ⊢
      rcases h2 with h | h
      · rcases max_choice a b with h' | h' <;> rw [h'] at h
        · left; rw [h', h]
        · right; left; rw [h', h]
      · right; right; exact h

theorem foldl_min_spec (l : List K) (a : K) :
    (∀ x ∈ a :: l, l.foldl min a ≤ x) ∧ l.foldl min a ∈ a :: l := by
  induction l generalizing a with
  | nil => simp
  | cons b l ih =>
    simp only [List.foldl_cons]
    have := ih (min a b)
    constructor
    · intro x hx
      have hm := this.1 (min a b) (by simp)
      simp only [List.mem_cons] at hx
      rcases hx with rfl | rfl | hx
      · exact le_trans hm (min_le_left _ _)
      · exact le_trans hm (min_le_right _ _)
      · exact this.1 x (by simp [hx])
    · have h2 := this.2
      simp only [List.mem_cons] at h2 ⊢
      rcases h2 with h | h
      · rcases min_choice a b with h' | h' <;> rw [h'] at h
        · left; rw [h', h]
        · right; left; rw [h', h]
      · right; right; exact h

/-- `amax`/`amin` are the greatest and the least element. -/
theorem amax_spec (l : List K) (h : l ≠ []) : ∃ a, amax l = some a ∧ a ∈ l ∧ ∀ x ∈ l, x ≤ a := by
  cases l with
  | nil => exact absurd rfl h
  | cons b l => exact ⟨_, rfl, (foldl_max_spec l b).2, (foldl_max_spec l b).1⟩

theorem amin_spec (l : List K) (h : l ≠ []) : ∃ a, amin l = some a ∧ a ∈ l ∧ ∀ x ∈ l, a ≤ x := by
  cases l with
  | nil => exact absurd rfl h
  | cons b l => exact ⟨_, rfl, (foldl_min_spec l b).2, (foldl_min_spec l b).1⟩

/-- the largest modulus (specification) -/
def MaxAbs (l : List K) (v : K) : Prop := (∀ x ∈ l, |x| ≤ v) ∧ ∃ x ∈ l, |x| = v

theorem maxAbs_of_bounds (l : List K) (a b : K) (ha : a ∈ l) (hb : b ∈ l) (ha' : ∀ x ∈ l, x ≤ a) (hb' : ∀ x ∈ l, b ≤ x) :
    MaxAbs l (max |a| |b|) := by
  constructor
  · intro x hx
    rw [abs_le]
    have h1 := ha' x hx
    have h2 := hb' x hx
    constructor
    · have : -|b| ≤ b := neg_abs_le b
      have := le_max_right |a| |b|
      linarith
    · exact le_trans h1 (le_trans (le_abs_self a) (le_max_left _ _))
  · rcases max_choice |a| |b| with h | h <;> rw [h]
    · exact ⟨a, ha, rfl⟩
    · exact ⟨b, hb, rfl⟩

theorem absRange_spec (l : List K) (h : l ≠ []) : ∃ v, absRange 10 l = some (10 * v) ∧ MaxAbs l v := by
  obtain ⟨a, ea, ha, ha'⟩ := amax_spec l h
  obtain ⟨b, eb, hb, hb'⟩ := amin_spec l h
  refine ⟨max |a| |b|, ?_, maxAbs_of_bounds l a b ha hb ha' hb'⟩
  have h10 : (0 : K) ≤ 10 := by norm_num
  simp only [absRange, ea, eb, abs_mul, abs_of_nonneg h10]
  rw [← max_mul_of_nonneg _ _ h10, mul_comm]

theorem mapM_some_emu {α β} (f : α → Option β) (l : List α) (P : α → β → Prop) (h : ∀ x ∈ l, ∃ y, f x = some y ∧ P x y) :
    ∃ ys, l.mapM f = some ys ∧ List.Forall₂ P l ys := by
  induction l with
  | nil => exact ⟨[], rfl, List.Forall₂.nil⟩
  | cons x xs ih =>
    obtain ⟨y, hy, hp⟩ := h x (by simp)
    obtain ⟨ys, hys, hf⟩ := ih (fun z hz => h z (by simp [hz]))
    exact ⟨y :: ys, by simp [List.mapM_cons, hy, hys], List.Forall₂.cons hp hf⟩

theorem forall₂_mem_right {α β} {P : α → β → Prop} {l : List α} {ys : List β} (h : List.Forall₂ P l ys) :
    ∀ y ∈ ys, ∃ x ∈ l, P x y := by
  induction h with
  | nil => simp
  | cons hp _ ih =>
    intro y hy
    rcases List.mem_cons.1 hy with rfl | hy
    · exact ⟨_, by simp, hp⟩
    · obtain ⟨x, hx, h⟩ := ih y hy
      exact ⟨x, by simp [hx], h⟩

theorem forall₂_mem_left {α β} {P : α → β → Prop} {l : List α} {ys : List β} (h : List.Forall₂ P l ys) :
    ∀ x ∈ l, ∃ y ∈ ys, P x y := by
  induction h with
  | nil => simp
  | cons hp _ ih =>
    intro y hy
    rcases List.mem_cons.1 hy with rfl | hy
    · exact ⟨_, by simp, hp⟩
    · obtain ⟨x, hx, h⟩ := ih y hy
      exact ⟨x, by simp [hx], h⟩

theorem globalRange_spec (data : List (List K)) (h : data ≠ []) (hr : ∀ r ∈ data, r ≠ []) :
    ∃ v, globalRange data = some v ∧ MaxAbs data.flatten v := by
  obtain ⟨as, eas, fas⟩ := mapM_some_emu amax data (fun r a => a ∈ r ∧ ∀ x ∈ r, x ≤ a) (fun r hr' => amax_spec r (hr r hr'))
  obtain ⟨bs, ebs, fbs⟩ := mapM_some_emu amin data (fun r a => a ∈ r ∧ ∀ x ∈ r, a ≤ x) (fun r hr' => amin_spec r (hr r hr'))
  have has : as ≠ [] := by
    intro e; subst e; cases fas; exact h rfl
  have hbs : bs ≠ [] := by
    intro e; subst e; cases fbs; exact h rfl
  obtain ⟨a, ea, ha, ha'⟩ := amax_spec as has
  obtain ⟨b, eb, hb, hb'⟩ := amin_spec bs hbs
  refine ⟨max |a| |b|, by simp only [globalRange, eas, ebs, ea, eb], ?_⟩
  obtain ⟨r, hr1, hr2, _⟩ := forall₂_mem_right fas a ha
  obtain ⟨r', hr1', hr2', _⟩ := forall₂_mem_right fbs b hb
  refine maxAbs_of_bounds _ a b (List.mem_flatten.2 ⟨r, hr1, hr2⟩) (List.mem_flatten.2 ⟨r', hr1', hr2'⟩) ?_ ?_
  · intro x hx
    obtain ⟨q, hq, hxq⟩ := List.mem_flatten.1 hx
    obtain ⟨y, hy, hy1, hy2⟩ := forall₂_mem_left fas q hq
    exact le_trans (hy2 x hxq) (ha' y hy)
  · intro x hx
    obtain ⟨q, hq, hxq⟩ := List.mem_flatten.1 hx
    obtain ⟨y, hy, hy1, hy2⟩ := forall₂_mem_left fbs q hq
    exact le_trans (hb' y hy) (hy2 x hxq)

/-- Specification of the factor of one row. -/
def ScaleSpec (normalization : String) (data : List (List K)) (row : List K) (v : K) : Prop :=
  if Spod.lower normalization = "localmax" then ∃ m, MaxAbs row m ∧ v = 10 * m
  else if Spod.lower normalization = "globalmax" then MaxAbs data.flatten v
  else v = 1

theorem forall₂_replicate {α β} {P : α → β → Prop} (l : List α) (v : β) (h : ∀ x ∈ l, P x v) :
    List.Forall₂ P l (List.replicate l.length v) := by
  induction l with
  | nil => exact List.Forall₂.nil
  | cons x xs ih =>
    rw [List.length_cons, List.replicate_succ]
    exact List.Forall₂.cons (h x (by simp)) (ih fun y hy => h y (by simp [hy]))

theorem rowScales_spec (normalization : String) (data : List (List K)) (h : data ≠ []) (hr : ∀ r ∈ data, r ≠ []) :
    ∃ vec, rowScales normalization data = some vec ∧ List.Forall₂ (ScaleSpec normalization data) data vec := by
  unfold rowScales ScaleSpec
  by_cases h1 : Spod.lower normalization = "localmax"
  · simp only [h1, if_true]
    refine mapM_some_emu _ data _ fun r hr' => ?_
    obtain ⟨v, e, hv⟩ := absRange_spec r (hr r hr')
    exact ⟨_, e, v, hv, rfl⟩
  · simp only [h1, if_false]
    by_cases h2 : Spod.lower normalization = "globalmax"
    · simp only [h2, if_true]
      obtain ⟨v, e, hv⟩ := globalRange_spec data h hr
      exact ⟨_, by rw [e]; rfl, forall₂_replicate _ _ fun _ _ => hv⟩
    · simp only [h2, if_false]
      exact ⟨_, rfl, forall₂_replicate _ _ fun _ _ => rfl⟩

theorem scaleSpec_pos {normalization : String} {data : List (List K)} {row : List K} {v : K}
    (h : ScaleSpec normalization data row v) (hrow : row ∈ data) (hnz : ∃ x ∈ row, x ≠ 0) : 0 < v := by
  obtain ⟨x, hx, hx0⟩ := hnz
  unfold ScaleSpec at h
  split_ifs at h with h1 h2
  · obtain ⟨m, hm, rfl⟩ := h
    have := hm.1 x hx
    have : 0 < |x| := abs_pos.2 hx0
    linarith
  · have := h.1 x (List.mem_flatten.2 ⟨row, hrow, hx⟩)
    have : 0 < |x| := abs_pos.2 hx0
    linarith
  · rw [h]; exact one_pos

/-- scaleBound on the scaled data: 1/10 for localmax, 1 for globalmax -/
def scaleBound (normalization : String) : Option K :=
  if Spod.lower normalization = "localmax" then some (1 / 10)
  else if Spod.lower normalization = "globalmax" then some 1 else none

theorem scale_row {normalization : String} {data : List (List K)} {row : List K} {v : K}
    (h : ScaleSpec normalization data row v) (hrow : row ∈ data) (hv : 0 < v) :
    (row.map fun x => (ndiv x v).map (· * v)) = row.map some ∧
    ∀ x ∈ row, ∃ y, ndiv x v = some y ∧ ∀ B, scaleBound normalization = some B → |y| ≤ B := by
  constructor
  · refine List.map_congr_left fun x _ => ?_
    simp only [ndiv, hv.ne', if_false, Option.map_some]
    rw [div_mul_cancel₀ _ hv.ne']
  · intro x hx
    refine ⟨x / v, by simp [ndiv, hv.ne'], ?_⟩
    intro B hB
    rw [abs_div, abs_of_pos hv, div_le_iff₀ hv]
    unfold scaleBound at hB
    unfold ScaleSpec at h
    split_ifs at h hB with h1 h2
    · obtain ⟨m, hm, rfl⟩ := h
      simp only [Option.some.injEq] at hB
      subst hB
      have := hm.1 x hx
      linarith
    · simp only [Option.some.injEq] at hB
      subst hB
      have := h.1 x (List.mem_flatten.2 ⟨row, hrow, hx⟩)
      linarith

/-- Every entry of a scaled data set is a number, bounded by `B` if there is a scaleBound. -/
def ScaledOk (b : Option K) (scaled : List (List (Option K))) : Prop :=
  ∀ row ∈ scaled, ∀ z ∈ row, ∃ y, z = some y ∧ ∀ B, b = some B → |y| ≤ B

theorem roundtrip_of_pos {normalization : String} {data d : List (List K)} {vec : List K} (hd : ∀ r ∈ d, r ∈ data)
    (h : List.Forall₂ (ScaleSpec normalization data) d vec) (hpos : ∀ v ∈ vec, 0 < v) :
    descaleReal (scaleReal d vec) vec = d.map (·.map some) ∧ ScaledOk (scaleBound normalization) (scaleReal d vec) := by
  induction h with
  | nil => exact ⟨rfl, by simp [ScaledOk, scaleReal]⟩
  | @cons row v rows vs hp hf ih =>
    have hrow := hd row (by simp)
    obtain ⟨i1, i2⟩ := ih (fun r hr => hd r (by simp [hr])) (fun w hw => hpos w (by simp [hw]))
    obtain ⟨s1, s2⟩ := scale_row hp hrow (hpos v (by simp))
    constructor
    · simp only [scaleReal, descaleReal, List.zipWith_cons_cons, List.map_map, List.map_cons] at i1 ⊢
      rw [i1]
      congr 1
    · intro r hr z hz
      simp only [scaleReal, List.zipWith_cons_cons, List.mem_cons] at hr
      rcases hr with rfl | hr
      · obtain ⟨x, hx, rfl⟩ := List.mem_map.1 hz
        exact s2 x hx
      · exact i2 r hr z hz

/-- **C54 (real data, partial).**  Every row having a non-zero entry, de-scaling the scaled data returns the data,
    and the scaled data lie in `[-1/10, 1/10]` (localmax) or `[-1, 1]` (globalmax). -/
theorem scaling_real_partial (dataType normalization : String) (hdt : Spod.lower dataType = "real") (data : List (List K))
    (h : data ≠ []) (hnz : ∀ r ∈ data, ∃ x ∈ r, x ≠ 0) :
    ∃ vec, scalerReal dataType normalization data = .ok vec ∧
      descaleReal (scaleReal data vec) vec = data.map (·.map some) ∧
      ScaledOk (scaleBound normalization) (scaleReal data vec) := by
  obtain ⟨vec, e, hv⟩ := rowScales_spec normalization data h (fun r hr => by
    obtain ⟨x, hx, _⟩ := hnz r hr
    exact List.ne_nil_of_mem hx)
  have hpos : ∀ v ∈ vec, 0 < v := by
    have aux : ∀ (d : List (List K)) (vs : List K), (∀ r ∈ d, r ∈ data) →
        List.Forall₂ (ScaleSpec normalization data) d vs → ∀ v ∈ vs, 0 < v := by
      intro d vs hd hf
      induction hf with
      | nil => simp
      | @cons r w rs ws hp _ ih =>
        intro v hv
        have hr := hd r (by simp)
        rcases List.mem_cons.1 hv with rfl | hv
        · exact scaleSpec_pos hp hr (hnz r hr)
        · exact ih (fun r hr => hd r (by simp [hr])) v hv
    exact aux data vec (fun _ hr => hr) hv
  refine ⟨vec, by simp only [scalerReal, hdt, if_true, e], ?_⟩
  exact roundtrip_of_pos (fun _ hr => hr) hv hpos

/-- **C54 fails** for a row of zeros with the default localmax normalization: every value of that row is lost
    (nan), also after de-scaling. -/
theorem scaling_zero_row_fails (dataType normalization : String) (hdt : Spod.lower dataType = "real")
    (hn : Spod.lower normalization = "localmax") (pre post : List (List K)) (row : List K) (hrow : row ≠ [])
    (hz : ∀ x ∈ row, x = 0) (hr : ∀ r ∈ pre ++ post, r ≠ []) :
    ∃ vec, scalerReal dataType normalization (pre ++ row :: post) = .ok vec ∧
      (descaleReal (scaleReal (pre ++ row :: post) vec) vec)[pre.length]? = some (row.map fun _ => none) := by
  obtain ⟨vec, e, hv⟩ := rowScales_spec normalization (pre ++ row :: post) (by simp) (fun r hr' => by
    simp only [List.mem_append, List.mem_cons] at hr'
    rcases hr' with h | rfl | h
    · exact hr r (by simp [h])
    · exact hrow
    · exact hr r (by simp [h]))
  refine ⟨vec, by simp only [scalerReal, hdt, if_true, e], ?_⟩
  have aux : ∀ (pre' : List (List K)) (vs : List K),
      List.Forall₂ (ScaleSpec normalization (pre ++ row :: post)) (pre' ++ row :: post) vs → 
      (descaleReal (scaleReal (pre' ++ row :: post) vs) vs)[pre'.length]? = some (row.map fun _ => none) := by
    intro pre'
    induction pre' with
    | nil =>
      intro vs hf
      cases hf with
      | @cons _ v _ vs hp _ =>
        unfold ScaleSpec at hp
        rw [if_pos hn] at hp
        obtain ⟨m, hm, rfl⟩ := hp
        obtain ⟨x, hx, hxm⟩ := hm.2
        rw [hz x hx, abs_zero] at hxm
        subst hxm
        simp [scaleReal, descaleReal, ndiv]
    | cons p ps ih =>
      intro vs hf
      cases hf with
      | @cons _ v _ vs hp hf =>
        have := ih vs hf
        simpa [scaleReal, descaleReal] using this
  exact aux pre vec hv

example : ∃ vec, scalerReal "real" "localmax" [[(1 : Rat), 2], [-3, 0]] = .ok vec ∧
    descaleReal (scaleReal [[(1 : Rat), 2], [-3, 0]] vec) vec = [[some 1, some 2], [some (-3), some 0]] := by
  obtain ⟨vec, h1, h2, _⟩ := scaling_real_partial "real" "localmax" (by decide) [[(1 : Rat), 2], [-3, 0]] (by simp)
    (by intro r hr
        simp only [List.mem_cons, List.not_mem_nil, or_false] at hr
        rcases hr with rfl | rfl
        · exact ⟨1, by simp, by norm_num⟩
        · exact ⟨-3, by simp, by norm_num⟩)
  exact ⟨vec, h1, h2⟩

/-- complex scaling is real scaling of the two parts -/
theorem complex_parts (data : List (List (K × K))) (a b : List K) (ha : a.length = data.length) (hb : b.length = data.length) :
    descaleComplex (scaleComplex data (a.zip b)) (a.zip b) =
      List.zipWith (fun r s => List.zip r s)
        (descaleReal (scaleReal (data.map fun r => r.map (·.1)) a) a)
        (descaleReal (scaleReal (data.map fun r => r.map (·.2)) b) b) := by
  induction data generalizing a b with
  | nil => simp [descaleComplex, scaleComplex, descaleReal, scaleReal]
  | cons r rs ih =>
    cases a with
    | nil => simp at ha
    | cons x xs =>
      cases b with
      | nil => simp at hb
      | cons y ys =>
        have := ih xs ys (by simpa using ha) (by simpa using hb)
        simp only [descaleComplex, scaleComplex, descaleReal, scaleReal, List.zip_cons_cons, List.zipWith_cons_cons,
          List.map_cons, List.map_map] at this ⊢
        rw [this]
        congr 1
        rw [List.zip_map']
        rfl

theorem forall₂_length {α β} {P : α → β → Prop} {l : List α} {ys : List β} (h : List.Forall₂ P l ys) : ys.length = l.length :=
  (List.Forall₂.length_eq h).symm

theorem scaled_parts (data : List (List (K × K))) (a b : List K) (ha : a.length = data.length) (hb : b.length = data.length) :
    (scaleComplex data (a.zip b)).map (·.map (·.1)) = scaleReal (data.map fun r => r.map (·.1)) a ∧
    (scaleComplex data (a.zip b)).map (·.map (·.2)) = scaleReal (data.map fun r => r.map (·.2)) b := by
  induction data generalizing a b with
  | nil => simp [scaleComplex, scaleReal]
  | cons r rs ih =>
    cases a with
    | nil => simp at ha
    | cons x xs =>
      cases b with
      | nil => simp at hb
      | cons y ys =>
        have := ih xs ys (by simpa using ha) (by simpa using hb)
        simp only [scaleComplex, scaleReal, List.zip_cons_cons, List.zipWith_cons_cons, List.map_cons, List.map_map] at this ⊢
        exact ⟨by rw [this.1]; rfl, by rw [this.2]; rfl⟩

/-- **C54 (complex data, partial).**  If every row has a non-zero real part and a non-zero imaginary part, the round
    trip returns the data, and the real and the imaginary parts of the scaled data lie in the advertised range. -/
theorem scaling_complex_partial (normalization : String) (data : List (List (K × K))) (h : data ≠ [])
    (hre : ∀ r ∈ data, ∃ x ∈ r, x.1 ≠ 0) (him : ∀ r ∈ data, ∃ x ∈ r, x.2 ≠ 0) :
    ∃ vec, scalerComplex "complex" normalization data = .ok vec ∧
      descaleComplex (scaleComplex data vec) vec = data.map (·.map fun z => (some z.1, some z.2)) ∧
      ScaledOk (scaleBound normalization) ((scaleComplex data vec).map (·.map (·.1))) ∧
      ScaledOk (scaleBound normalization) ((scaleComplex data vec).map (·.map (·.2))) := by
  have hr : Spod.lower "real" = "real" := by decide
  obtain ⟨a, ea, ra, qa⟩ := scaling_real_partial "real" normalization hr (data.map fun r => r.map (·.1)) (by simpa using h)
    (by intro r hr
        obtain ⟨q, hq, rfl⟩ := List.mem_map.1 hr
        obtain ⟨x, hx, hx0⟩ := hre q hq
        exact ⟨x.1, List.mem_map.2 ⟨x, hx, rfl⟩, hx0⟩)
  obtain ⟨b, eb, rb, qb⟩ := scaling_real_partial "real" normalization hr (data.map fun r => r.map (·.2)) (by simpa using h)
    (by intro r hr
        obtain ⟨q, hq, rfl⟩ := List.mem_map.1 hr
        obtain ⟨x, hx, hx0⟩ := him q hq
        exact ⟨x.2, List.mem_map.2 ⟨x, hx, rfl⟩, hx0⟩)
  have ga : rowScales normalization (data.map fun r => r.map (·.1)) = some a := by
    simp only [scalerReal, hr, if_true] at ea
    split at ea
    · rename_i v hv; cases ea; exact hv
    · cases ea
  have gb : rowScales normalization (data.map fun r => r.map (·.2)) = some b := by
    simp only [scalerReal, hr, if_true] at eb
    split at eb
    · rename_i v hv; cases eb; exact hv
    · cases eb
  have la : a.length = data.length := by
    have := congrArg List.length ra
    simp only [descaleReal, scaleReal, List.length_zipWith, List.length_map] at this
    obtain ⟨vec, e, hv⟩ := rowScales_spec normalization (data.map fun r => r.map (·.1)) (by simpa using h)
      (by intro r hr
          obtain ⟨q, hq, rfl⟩ := List.mem_map.1 hr
          obtain ⟨x, hx, _⟩ := hre q hq
          exact List.ne_nil_of_mem (List.mem_map.2 ⟨x, hx, rfl⟩))
    rw [ga] at e; cases e
    rw [forall₂_length hv, List.length_map]
  have lb : b.length = data.length := by
    obtain ⟨vec, e, hv⟩ := rowScales_spec normalization (data.map fun r => r.map (·.2)) (by simpa using h)
      (by intro r hr
          obtain ⟨q, hq, rfl⟩ := List.mem_map.1 hr
          obtain ⟨x, hx, _⟩ := him q hq
          exact List.ne_nil_of_mem (List.mem_map.2 ⟨x, hx, rfl⟩))
    rw [gb] at e; cases e
    rw [forall₂_length hv, List.length_map]
  refine ⟨a.zip b, by simp only [scalerComplex, if_true, ga, gb], ?_, by rw [(scaled_parts data a b la lb).1]; exact qa,
    by rw [(scaled_parts data a b la lb).2]; exact qb⟩
  rw [complex_parts data a b la lb, ra, rb]
  clear ra rb ga gb ea eb la lb hre him h qa qb
  induction data with
  | nil => rfl
  | cons r rs ih =>
    simp only [List.map_cons, List.zipWith_cons_cons, List.map_map] at ih ⊢
    rw [ih]
    congr 1
    rw [List.zip_map']
    rfl

/-- **C54 fails** for a complex series that is purely real in one row (e.g. the coefficients of the zero
    frequency): the imaginary parts become nan. -/
theorem scaling_real_row_fails :
    ∃ (data : List (List (Rat × Rat))) (vec : List (Rat × Rat)), scalerComplex "complex" "localmax" data = .ok vec ∧
      data = [[(1, 0), (2, 0)]] ∧ descaleComplex (scaleComplex data vec) vec = [[(some 1, none), (some 2, none)]] := by
  refine ⟨[[(1, 0), (2, 0)]], [(20, 0)], ?_, rfl, ?_⟩
  · have h1 : Spod.lower "localmax" = "localmax" := by decide
    norm_num [scalerComplex, rowScales, h1, absRange, amax, amin, List.mapM_cons]
  · norm_num [descaleComplex, scaleComplex, ndiv]

/-- **C54 fails** for `data_type='Complex'`: `scale_data` and `descale_data` ignore case, the vector cannot be
    computed. -/
theorem scaling_type_case_fails : acceptsScaling "Complex" = true ∧
    ∀ (n : String) (data : List (List (Rat × Rat))), scalerComplex "Complex" n data = .error "TypeError" := by
  refine ⟨by decide, ?_⟩
  intro n data
  simp [scalerComplex]

end Scaling

/-! ### C55: training sequences -/

theorem takeIdx_range' {α} (states : List α) (a n : Nat) (h : a + n ≤ states.length) :
    takeIdx states (List.range' a n) = some (Rd.pslice states a (a + n)) := by
  unfold takeIdx Rd.pslice
  induction n generalizing a with
  | zero => simp
  | succ n ih =>
    rw [List.range'_succ, List.mapM_cons, List.getElem?_eq_getElem (by omega)]
    have := ih (a + 1) (by omega)
    rw [this]
    simp only [Option.pure_def, Option.bind_eq_bind, Option.bind_some, Option.some.injEq]
    rw [List.drop_eq_getElem_cons (show a < states.length by omega)]
    rw [show a + (n + 1) - a = n + 1 by omega, show a + 1 + n - (a + 1) = n by omega, List.take_succ_cons]

theorem mapM_range {β} (f : Nat → Option β) (g : Nat → β) (n : Nat) (h : ∀ t, t < n → f t = some (g t)) :
    (List.range n).mapM f = some ((List.range n).map g) := by
  have : ∀ l : List Nat, (∀ t ∈ l, t < n) → l.mapM f = some (l.map g) := by
    intro l
    induction l with
    | nil => intro _; rfl
    | cons x xs ih =>
      intro hl
      rw [List.mapM_cons, h x (hl x (by simp)), ih (fun t ht => hl t (by simp [ht]))]
      rfl
  exact this _ fun t ht => List.mem_range.1 ht

/-- Window `t`: input snapshots `[t, t+n_in)`, target snapshots `[t+n_in+fh-1, ... + n_out)` (specification). -/
def seqPair {α} (nIn nOut fh : Nat) (states : List α) (t : Nat) : List α × List α :=
  (Rd.pslice states t (t + nIn), Rd.pslice states (t + nIn + fh - 1) (t + nIn + fh - 1 + nOut))

/-- **C55 (exact).**  The training pairs are the windows `0, 1, ..., nt-n_in-n_out-fh`, in order; every one lies
    inside the data. -/
theorem extract_exact {α} (nIn nOut fh : Nat) (hfh : 1 ≤ fh) (states : List α) (h : nIn + nOut + fh ≤ states.length + 1) :
    extractSequences nIn nOut fh states =
      .ok ((List.range (states.length + 1 - (nIn + nOut + fh))).map (seqPair nIn nOut fh states)) ∧
    ∀ t, t < states.length + 1 - (nIn + nOut + fh) → t + nIn + fh - 1 + nOut ≤ states.length := by
  constructor
  · unfold extractSequences
    have ht : (totalSize states.length nIn nOut fh).toNat = states.length + 1 - (nIn + nOut + fh) := by
      unfold totalSize; omega
    rw [if_neg (by omega)]
    simp only [ht]
    rw [if_neg (by unfold totalSize; omega)]
    rw [mapM_range _ (seqPair nIn nOut fh states)]
    intro t ht'
    simp only [seqIdx]
    rw [takeIdx_range' states t nIn (by omega), takeIdx_range' states _ nOut (by omega)]
    rfl
  · intro t ht; omega

/-- **C55 (alignment, partial).**  With the default horizon, pair `k` is snapshots `[k,k+n_in)` and
    `[k+n_in,k+n_in+n_out)`. -/
theorem extract_aligned_partial {α} (nIn nOut : Nat) (states : List α) (h : nIn + nOut ≤ states.length) :
    ∃ l, extractSequences nIn nOut 1 states = .ok l ∧ l.length = states.length - (nIn + nOut) ∧
      ∀ k, k < l.length → l[k]? = some (Rd.pslice states k (k + nIn), Rd.pslice states (k + nIn) (k + nIn + nOut)) := by
  refine ⟨_, (extract_exact nIn nOut 1 le_rfl states (by omega)).1, by simp, ?_⟩
  intro k hk
  simp only [List.length_map, List.length_range] at hk
  rw [List.getElem?_map, List.getElem?_range hk]
  simp [seqPair]

/-- **C55 fails**: the last window that fits, number `nt-n_in-n_out-fh+1`, is never used, for any sizes. -/
theorem extract_last_fails {α} (nIn nOut fh : Nat) (hfh : 1 ≤ fh) (states : List α) (h : nIn + nOut + fh ≤ states.length + 1) :
    ∃ l, extractSequences nIn nOut fh states = .ok l ∧
      (states.length + 1 - (nIn + nOut + fh)) + nIn + fh - 1 + nOut ≤ states.length ∧
      l.length = states.length + 1 - (nIn + nOut + fh) :=
  ⟨_, (extract_exact nIn nOut fh hfh states h).1, by omega, by simp⟩

/-- **C55.**  A forecast horizon of zero is rejected, for all data. -/
theorem extract_horizon_zero {α} (nIn nOut : Nat) (states : List α) :
    extractSequences nIn nOut 0 states = .error "ValueError" := by
  simp [extractSequences]

/-- In particular data of exactly `n_in + n_out` snapshots give no training pair, and one snapshot fewer is an
    error. -/
theorem extract_minimal_fails {α} (nIn nOut : Nat) (states : List α) :
    (states.length = nIn + nOut → extractSequences nIn nOut 1 states = .ok []) ∧
    (states.length < nIn + nOut → ∃ e, extractSequences nIn nOut 1 states = .error e) := by
  constructor
  · intro h
    rw [(extract_exact nIn nOut 1 le_rfl states (by omega)).1, h]
    simp
  · intro h
    refine ⟨"ValueError", ?_⟩
    unfold extractSequences
    rw [if_neg (by omega)]
    simp only []
    rw [if_pos (by unfold totalSize; omega)]

example : extractSequences 2 1 1 [10, 11, 12, 13, 14] = .ok [([10, 11], [12]), ([11, 12], [13])] := by decide

/-! ### C56: inference -/

theorem fillTurns_spec {α} (nIn nOut : Nat) (hOut : 0 < nOut) (pred : Nat → List α) (hp : ∀ i, (pred i).length = nOut)
    (n i0 : Nat) (done rest : List α) (hd : done.length = nOut * i0 + nIn) (hr : rest.length = nOut * n) :
    fillTurns nIn nOut pred i0 n (done ++ rest) = some (done ++ (List.range' i0 n).flatMap pred) := by
  induction n generalizing i0 done rest with
  | zero =>
    have : rest = [] := by simpa using hr
    subst this
    simp [fillTurns]
  | succ n ih =>
    rw [Nat.mul_succ] at hr
    have hw : min (nIn + nOut * (i0 + 1)) (done ++ rest).length - (nOut * i0 + nIn) = nOut := by
      rw [List.length_append, hd, hr, Nat.mul_succ]; omega
    have ha : assignCols (done ++ rest) (nOut * i0 + nIn) (nIn + nOut * (i0 + 1)) (pred i0) =
        some ((done ++ pred i0) ++ rest.drop nOut) := by
      have e1 : (done ++ rest).take (nOut * i0 + nIn) = done := by rw [← hd, List.take_left]
      have e2 : (done ++ rest).drop (nOut * i0 + nIn + nOut) = rest.drop nOut := by
        rw [← hd, List.drop_append, List.drop_of_length_le (by omega)]; simp
      unfold assignCols
      rw [hw]
      simp only [e1, e2]
      have hlen := hp i0
      match hpi : pred i0 with
      | [] => rw [hpi] at hlen; simp at hlen; omega
      | [c] => rw [hpi] at hlen; simp only [List.length_singleton] at hlen; rw [← hlen]; rfl
      | a :: b :: t => rw [hpi] at hlen; simp only [hlen, if_true]
    simp only [fillTurns, ha]
    rw [ih (i0 + 1) (done ++ pred i0) (rest.drop nOut) (by rw [List.length_append, hd, hp, Nat.mul_succ]; omega)
      (by rw [List.length_drop, hr]; omega)]
    rw [List.range'_succ, List.flatMap_cons, List.append_assoc]

/-- **C56 (partial).**  If the number of columns to predict is a multiple of `n_out`, the result has as many columns
    as the input, starts with the first `n_in` input columns and continues with the predictions made from the
    `n_in` input columns before each group of `n_out`. -/
theorem inference_partial {α} (zero : α) (nIn nOut : Nat) (hOut : 0 < nOut) (predict : List α → List α)
    (hp : ∀ w, (predict w).length = nOut) (cols : List α) (m : Nat) (h : cols.length = nIn + nOut * m) :
    inference zero nIn nOut predict cols =
      .ok (cols.take nIn ++ (List.range m).flatMap fun i => predict (Rd.pslice cols (i * nOut) (i * nOut + nIn))) := by
  unfold inference
  rw [if_neg (by omega), if_neg (by omega)]
  have ht : turns cols.length nIn nOut = m := by
    unfold turns
    rw [h, Nat.add_sub_cancel_left]
    have : nOut * m + nOut - 1 = nOut * m + (nOut - 1) := by omega
    rw [this, Nat.mul_add_div hOut, Nat.div_eq_of_lt (by omega), Nat.add_zero]
  simp only [ht]
  rw [fillTurns_spec nIn nOut hOut (predTurn nIn nOut predict cols) (fun i => hp _) m 0 (cols.take nIn) _
    (by simp; omega) (by simp; omega)]
  simp only [List.range_eq_range']
  rfl

/-- every predicted column, addressed by its position -/
theorem inference_column_partial {α} (zero : α) (nIn nOut : Nat) (hOut : 0 < nOut) (predict : List α → List α)
    (hp : ∀ w, (predict w).length = nOut) (cols : List α) (m : Nat) (h : cols.length = nIn + nOut * m) :
    ∃ out, inference zero nIn nOut predict cols = .ok out ∧ out.length = cols.length ∧
      (∀ j, j < nIn → out[j]? = cols[j]?) ∧
      ∀ i k, i < m → k < nOut → out[nIn + i * nOut + k]? = (predict (Rd.pslice cols (i * nOut) (i * nOut + nIn)))[k]? := by
  refine ⟨_, inference_partial zero nIn nOut hOut predict hp cols m h, ?_, ?_, ?_⟩
  · rw [List.length_append, List.length_take, List.length_flatMap]
    simp only [hp]
    rw [List.map_const', List.sum_replicate]
    simp; rw [h, Nat.mul_comm]; omega
  · intro j hj
    rw [List.getElem?_append_left (by simp; omega), List.getElem?_take_of_lt hj]
  · intro i k hi hk
    rw [List.getElem?_append_right (by simp; omega)]
    have e : nIn + i * nOut + k - (cols.take nIn).length = i * nOut + k := by simp; omega
    rw [e]
    have gen : ∀ (l : List Nat) (f : Nat → List α) (i : Nat) (a : Nat), (∀ x, (f x).length = nOut) → l[i]? = some a →
        (l.flatMap f)[i * nOut + k]? = (f a)[k]? := by
      intro l f i a hf
      induction l generalizing i with
      | nil => simp
      | cons x xs ih =>
        intro hi
        rw [List.flatMap_cons]
        cases i with
        | zero =>
          simp only [List.getElem?_cons_zero, Option.some.injEq] at hi
          subst hi
          rw [Nat.zero_mul, Nat.zero_add, List.getElem?_append_left (by rw [hf]; exact hk)]
        | succ i =>
          simp only [List.getElem?_cons_succ] at hi
          rw [List.getElem?_append_right (by rw [hf, Nat.add_mul]; omega), hf,
            show (i + 1) * nOut + k - nOut = i * nOut + k by rw [Nat.add_mul]; omega]
          exact ih i hi
    exact gen (List.range m) _ i i (fun _ => hp _) (by simp [hi])

/-- **C56 fails** for every other length: the last, shorter group cannot be assigned. -/
theorem inference_fails {α} (zero : α) (nIn nOut : Nat) (predict : List α → List α)
    (hp : ∀ w, (predict w).length = nOut) (cols : List α) (m s : Nat) (hs : 0 < s) (hs' : s < nOut)
    (h : cols.length = nIn + nOut * m + s) : inference zero nIn nOut predict cols = .error "ValueError" := by
  have hOut : 0 < nOut := by omega
  unfold inference
  rw [if_neg (by omega), if_neg (by omega)]
  have ht : turns cols.length nIn nOut = m + 1 := by
    unfold turns
    rw [h, show nIn + nOut * m + s - nIn + nOut - 1 = nOut * (m + 1) + (s - 1) by rw [Nat.mul_succ]; omega,
      Nat.mul_add_div hOut, Nat.div_eq_of_lt (by omega), Nat.add_zero]
  simp only [ht]
  have key : ∀ (n i0 : Nat) (buf : List α), buf.length = nIn + nOut * (i0 + n) + s →
      fillTurns nIn nOut (predTurn nIn nOut predict cols) i0 (n + 1) buf = none := by
    intro n
    induction n with
    | zero =>
      intro i0 buf hb
      simp only [fillTurns]
      have : assignCols buf (nOut * i0 + nIn) (nIn + nOut * (i0 + 1)) (predTurn nIn nOut predict cols i0) = none := by
        have hw : min (nIn + nOut * (i0 + 1)) buf.length - (nOut * i0 + nIn) = s := by
          rw [hb, Nat.mul_succ, Nat.add_zero]; omega
        unfold assignCols
        rw [hw]
        have hlen : (predTurn nIn nOut predict cols i0).length = nOut := hp _
        match hpi : predTurn nIn nOut predict cols i0 with
        | [] => rw [hpi] at hlen; simp at hlen; omega
        | [c] => rw [hpi] at hlen; simp only [List.length_singleton] at hlen; omega
        | a :: b :: t =>
          rw [hpi] at hlen
          simp only [hlen]
          rw [if_neg (by omega)]
      rw [this]
    | succ n ih =>
      intro i0 buf hb
      rw [fillTurns]
      split
      · rfl
      · rename_i b hb'
        apply ih
        -- lengths are preserved
        have hw : min (nIn + nOut * (i0 + 1)) buf.length - (nOut * i0 + nIn) = nOut := by
          rw [hb, Nat.mul_succ, show nOut * (i0 + (n + 1)) = nOut * i0 + nOut + nOut * n by ring]; omega
        have hle : nOut * i0 + nIn + nOut ≤ buf.length := by
          rw [hb, show nOut * (i0 + (n + 1)) = nOut * i0 + nOut + nOut * n by ring]; omega
        have hlen : (predTurn nIn nOut predict cols i0).length = nOut := hp _
        unfold assignCols at hb'
        rw [hw] at hb'
        have hl : b.length = buf.length := by
          match hpi : predTurn nIn nOut predict cols i0 with
          | [] => rw [hpi] at hlen; simp at hlen; omega
          | [c] =>
            rw [hpi] at hb'
            simp only [Option.some.injEq] at hb'
            rw [← hb']; simp; omega
          | a :: b' :: t =>
            rw [hpi] at hb' hlen
            simp only [hlen, if_true, Option.some.injEq] at hb'
            rw [← hb']
            rw [List.length_append, List.length_append, hlen]; simp; omega
        rw [hl, hb]
        congr 3; omega
  rw [key m 0 _ (by simp [h]; omega)]

/-- non-vacuity: three-column groups predicted by repeating the last column -/
example : inference 0 2 2 (fun w => [w.getLastD 0, w.getLastD 0]) [1, 2, 3, 4, 5, 6] = .ok [1, 2, 2, 2, 4, 4] := by decide
example : inference 0 2 2 (fun w => [w.getLastD 0, w.getLastD 0]) [1, 2, 3, 4, 5] = .error "ValueError" := by decide

/-- **C56 (short input).**  Fewer than `n_in` columns raise. -/
theorem inference_short {α} (zero : α) (nIn nOut : Nat) (predict : List α → List α) (cols : List α) (h : cols.length < nIn) :
    ∃ e, inference zero nIn nOut predict cols = .error e :=
  ⟨_, by unfold inference; rw [if_pos h]⟩

/-- The real and imaginary parts of a prediction depend only on the real, respectively imaginary, parts of the
    window; without imaginary parts in the input the prediction is real. -/
theorem complexPredict_parts {β} (zero : β) (anyImag : Bool) (netRe netIm : List β → List β) (n : Nat)
    (h1 : ∀ w, (netRe w).length = n) (h2 : ∀ w, (netIm w).length = n) (win : List (β × β)) :
    (complexPredict zero anyImag netRe netIm win).length = n ∧
    (complexPredict zero anyImag netRe netIm win).map (·.1) = netRe (win.map (·.1)) ∧
    (complexPredict zero anyImag netRe netIm win).map (·.2) =
      if anyImag then netIm (win.map (·.2)) else List.replicate n zero := by
  unfold complexPredict
  refine ⟨?_, ?_, ?_⟩
  · cases anyImag <;> simp [h1, h2]
  · cases anyImag <;> rw [List.map_fst_zip] <;> simp [h1, h2]
  · cases anyImag <;> rw [List.map_snd_zip] <;> simp [h1, h2]

end Verif.Props
