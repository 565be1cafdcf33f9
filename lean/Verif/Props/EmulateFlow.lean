import Verif.Props.Emulation
import Verif.Props.PodError
/-
  C213, C214: the emulation workflow: scale, infer, scale back, reconstruct.
-/
namespace Verif.Props
open Verif Verif.Emu Verif.Par Verif.Fit Verif.Pod

/-- the rows of a matrix -/
def table {α} {r n : Nat} (C : Fin r → Fin n → α) : List (List α) := List.ofFn fun i => List.ofFn fun j => C i j

theorem table_length {α} {r n : Nat} (C : Fin r → Fin n → α) : (table C).length = r := by simp [table]

theorem table_at {α} {r n : Nat} (C : Fin r → Fin n → α) (i : Fin r) : (table C)[i.1]? = some (List.ofFn (C i)) := by
  simp [table]

theorem filterMap_ofFn {α β} {r : Nat} (f : Fin r → α) (g : α → Option β) (h : Fin r → β) (hg : ∀ i, g (f i) = some (h i)) :
    (List.ofFn f).filterMap g = List.ofFn h := by
  rw [List.ofFn_eq_map, List.filterMap_map, List.ofFn_eq_map, ← List.filterMap_eq_map]
  exact List.filterMap_congr fun i _ => hg i

theorem map_range_ofFn {β} (n : Nat) (f : Nat → β) : (List.range n).map f = List.ofFn fun j : Fin n => f j.1 := by
  apply List.ext_getElem <;> simp

/-- the transpose of the rows of a matrix -/
theorem transposed_table {α} {r n : Nat} (C : Fin r → Fin n → α) : transposed n (table C) = table fun j i => C i j := by
  unfold transposed
  rw [map_range_ofFn]
  unfold table
  congr 1
  funext j
  exact filterMap_ofFn _ _ _ fun i => by simp

/-- a list of lists of one length is the rows of a matrix -/
theorem table_of {α} (z : α) (r n : Nat) (l : List (List α)) (hl : l.length = r) (hn : ∀ c ∈ l, c.length = n) :
    l = table fun (i : Fin r) (j : Fin n) => (l.getD i.1 []).getD j.1 z := by
  subst hl
  unfold table
  apply List.ext_getElem (by simp)
  intro i h1 h2
  apply List.ext_getElem (by simp [hn _ (List.getElem_mem h1)])
  intro j h3 h4
  simp [h3]

section
variable {K : Type} [Field K] [LinearOrder K]

theorem zipWith_ofFn {α β γ} {r : Nat} (f : α → β → γ) (a : Fin r → α) (b : Fin r → β) :
    List.zipWith f (List.ofFn a) (List.ofFn b) = List.ofFn fun i => f (a i) (b i) := by
  apply List.ext_getElem <;> simp

theorem scaleReal_table {r n : Nat} (C : Fin r → Fin n → K) (v : Fin r → K) :
    scaleReal (table C) (List.ofFn v) = table fun i j => ndiv (C i j) (v i) := by
  unfold scaleReal table
  rw [zipWith_ofFn]
  congr 1
  funext i
  rw [List.map_ofFn]
  rfl

omit [LinearOrder K] in
theorem descaleReal_table {r n : Nat} (C : Fin r → Fin n → Option K) (v : Fin r → K) :
    descaleReal (table C) (List.ofFn v) = table fun i j => (C i j).map (· * v i) := by
  unfold descaleReal table
  rw [zipWith_ofFn]
  congr 1
  funext i
  rw [List.map_ofFn]
  rfl

variable [IsStrictOrderedRing K]

/-- the columns `a, …, a+n-1` of `C`, each row divided by its factor (specification) -/
def scaledWindow {r nt : Nat} (C : Fin r → Fin nt → K) (v : Fin r → K) (a n : Nat) : List (List (Option K)) :=
  ((table fun (j : Fin nt) i => some (C i j / v i)).drop a).take n

/-- a network: `n_out` columns of `r` numbers for every input -/
def IsNet {α} (r nOut : Nat) (net : List (List α) → List (List α)) : Prop := ∀ w, (net w).length = nOut ∧ ∀ c ∈ net w, c.length = r

/-- the factors of the training coefficients -/
theorem scaler_exists (dataType normalization : String) (hdt : Spod.lower dataType = "real") {r nTrain : Nat}
    (train : Fin r → Fin nTrain → K) (hr : 0 < r) (hnz : ∀ i, ∃ j, train i j ≠ 0) :
    ∃ v : Fin r → K, scalerReal dataType normalization (table train) = .ok (List.ofFn v) ∧
      ∀ i, 0 < v i ∧ ScaleSpec normalization (table train) (List.ofFn (train i)) (v i) := by
  have hne : table train ≠ [] := by
    intro h
    have := congrArg List.length h
    rw [table_length] at this
    simp at this
    omega
  have hmem : ∀ i, List.ofFn (train i) ∈ table train := fun i => by
    unfold table
    exact (List.mem_ofFn' _ _).2 ⟨i, rfl⟩
  obtain ⟨vec, e, hv⟩ := rowScales_spec normalization (table train) hne (by
    intro row hrow
    unfold table at hrow
    obtain ⟨i, rfl⟩ := (List.mem_ofFn' _ _).1 hrow
    obtain ⟨j, _⟩ := hnz i
    intro h
    have := congrArg List.length h
    simp at this
    exact absurd j.2 (by omega))
  have hl : vec.length = r := by rw [forall₂_length hv, table_length]
  subst hl
  refine ⟨fun i => vec[i], ?_, fun i => ?_⟩
  · unfold scalerReal
    rw [if_pos hdt, e]
    simp
  · have h1 := (List.forall₂_iff_get.1 hv).2 i.1 (by rw [table_length]; exact i.2) i.2
    have h2 : (table train).get ⟨i.1, by rw [table_length]; exact i.2⟩ = List.ofFn (train i) := by simp [table]
    rw [h2] at h1
    obtain ⟨j, hj⟩ := hnz i
    exact ⟨scaleSpec_pos h1 (hmem i) ⟨_, (List.mem_ofFn' _ _).2 ⟨j, rfl⟩, hj⟩, h1⟩

/-- **C213.** The emulated coefficients: the first `n_in` columns are those of the test data, and the columns of turn `k` are the output of the
    network for the `n_in` scaled true columns before them, each row times the factor of the training row.  No other column influences them. -/
theorem emulate_exact (dataType normalization : String) (hdt : Spod.lower dataType = "real") {r nTrain nt : Nat}
    (train : Fin r → Fin nTrain → K) (test : Fin r → Fin nt → K) (hr : 0 < r) (hnz : ∀ i, ∃ j, train i j ≠ 0) (nIn nOut m : Nat)
    (hOut : 0 < nOut) (hnt : nt = nIn + nOut * m) (net : List (List (Option K)) → List (List (Option K))) (hnet : IsNet r nOut net) :
    ∃ v : Fin r → K, scalerReal dataType normalization (table train) = .ok (List.ofFn v) ∧
      (∀ i, 0 < v i ∧ ScaleSpec normalization (table train) (List.ofFn (train i)) (v i)) ∧
      ∃ out : Fin r → Fin nt → Option K, emulate dataType normalization nIn nOut net (table train) (table test) = .ok (table out) ∧
        (∀ i j, j.1 < nIn → out i j = some (test i j)) ∧
        ∀ i j k l, k < m → l < nOut → j.1 = nIn + k * nOut + l →
          out i j = (((net (scaledWindow test v (k * nOut) nIn)).getD l []).getD i.1 none).map (· * v i) := by
  obtain ⟨v, e, hv⟩ := scaler_exists dataType normalization hdt train hr hnz
  have hs : scaleReal (table test) (List.ofFn v) = table fun i j => some (test i j / v i) := by
    rw [scaleReal_table]
    congr 1
    funext i j
    simp [ndiv, (hv i).1.ne']
  have hh : ((table test).headD []).length = nt := by
    obtain ⟨r, rfl⟩ : ∃ k, r = k + 1 := ⟨r - 1, by omega⟩
    simp [table, List.ofFn_succ]
  obtain ⟨cols, c1, c2, c3, c4⟩ := inference_column_partial (List.replicate (table test).length (some (0 : K))) nIn nOut hOut net (fun w => (hnet w).1)
    (table fun (j : Fin nt) i => some (test i j / v i)) m (by rw [table_length]; exact hnt)
  have hcl : cols.length = nt := by rw [c2, table_length]
  have hwin : ∀ k, Rd.pslice (table fun (j : Fin nt) i => some (test i j / v i)) (k * nOut) (k * nOut + nIn) = scaledWindow test v (k * nOut) nIn := by
    intro k
    unfold Rd.pslice scaledWindow
    rw [Nat.add_sub_cancel_left]
  have hlen : ∀ c ∈ cols, c.length = r := by
    intro c hc
    obtain ⟨q, hq, rfl⟩ := List.getElem_of_mem hc
    by_cases h : q < nIn
    · have := c3 q h
      rw [List.getElem?_eq_getElem hq] at this
      have ht := table_at (fun (j : Fin nt) i => some (test i j / v i)) ⟨q, by omega⟩
      simp only at ht
      rw [ht] at this
      rw [Option.some.inj this]
      simp
    · have hd := Nat.div_add_mod (q - nIn) nOut
      have hm := Nat.mod_lt (q - nIn) hOut
      have hk : (q - nIn) / nOut < m := by
        rw [Nat.div_lt_iff_lt_mul hOut, Nat.mul_comm]; omega
      have := c4 ((q - nIn) / nOut) ((q - nIn) % nOut) hk hm
      rw [show nIn + (q - nIn) / nOut * nOut + (q - nIn) % nOut = q by rw [Nat.mul_comm] at hd; omega, List.getElem?_eq_getElem hq] at this
      exact (hnet _).2 _ (List.mem_of_getElem? this.symm)
  have htab := table_of (none : Option K) nt r cols hcl hlen
  refine ⟨v, e, hv, fun i j => ((cols.getD j.1 []).getD i.1 none).map (· * v i), ?_, ?_, ?_⟩
  · unfold emulate
    rw [e]
    simp only
    rw [hs, hh, transposed_table, c1]
    simp only [table_length]
    rw [htab, transposed_table, descaleReal_table]
    congr 2
    funext i j
    rw [← htab]
  · intro i j hj
    have := c3 j hj
    rw [table_at (fun (j : Fin nt) i => some (test i j / v i)) j] at this
    simp only [List.getD_eq_getElem?_getD, this, Option.getD_some]
    simp [(hv i).1.ne']
  · intro i j k l hk hl hj
    have := c4 k l hk hl
    rw [← hj, hwin] at this
    simp only [List.getD_eq_getElem?_getD, this]

/-- **C213 (errors).** If the network is right up to `ε` on the scaled test data, the emulated coefficients are right up to `ε` times the factor of the
    row; with `ε = 0` they are the test coefficients. -/
theorem emulate_error (dataType normalization : String) (hdt : Spod.lower dataType = "real") {r nTrain nt : Nat}
    (train : Fin r → Fin nTrain → K) (test : Fin r → Fin nt → K) (hr : 0 < r) (hnz : ∀ i, ∃ j, train i j ≠ 0) (nIn nOut m : Nat)
    (hOut : 0 < nOut) (hnt : nt = nIn + nOut * m) (net : List (List (Option K)) → List (List (Option K))) (hnet : IsNet r nOut net)
    (v : Fin r → K) (hv : scalerReal dataType normalization (table train) = .ok (List.ofFn v)) (ε : K) (hε : 0 ≤ ε)
    (hacc : ∀ i j k l, k < m → l < nOut → j.1 = nIn + k * nOut + l →
      ∃ y, ((net (scaledWindow test v (k * nOut) nIn)).getD l []).getD i.1 none = some y ∧ |y - test i j / v i| ≤ ε) :
    ∃ out : Fin r → Fin nt → K, emulate dataType normalization nIn nOut net (table train) (table test) = .ok (table fun i j => some (out i j)) ∧
      (∀ i j, j.1 < nIn → out i j = test i j) ∧ ∀ i j, |out i j - test i j| ≤ ε * v i := by
  obtain ⟨v', e, hp, out, h1, h2, h3⟩ := emulate_exact dataType normalization hdt train test hr hnz nIn nOut m hOut hnt net hnet
  obtain rfl : v' = v := by
    rw [hv, Except.ok.injEq] at e
    exact (List.ofFn_injective e).symm
  have key : ∀ i j, ∃ z, out i j = some z ∧ |z - test i j| ≤ ε * v' i ∧ (j.1 < nIn → z = test i j) := by
    intro i j
    by_cases hj : j.1 < nIn
    · refine ⟨test i j, h2 i j hj, ?_, fun _ => rfl⟩
      rw [sub_self, abs_zero]
      exact mul_nonneg hε (hp i).1.le
    · have hd := Nat.div_add_mod (j.1 - nIn) nOut
      have hm := Nat.mod_lt (j.1 - nIn) hOut
      have hk : (j.1 - nIn) / nOut < m := by
        rw [Nat.div_lt_iff_lt_mul hOut, Nat.mul_comm]; omega
      have hj' : j.1 = nIn + (j.1 - nIn) / nOut * nOut + (j.1 - nIn) % nOut := by rw [Nat.mul_comm] at hd; omega
      obtain ⟨y, hy, hy'⟩ := hacc i j _ _ hk hm hj'
      refine ⟨y * v' i, by rw [h3 i j _ _ hk hm hj', hy]; rfl, ?_, fun h => absurd h hj⟩
      have hv0 := (hp i).1
      have : y * v' i - test i j = (y - test i j / v' i) * v' i := by
        rw [sub_mul, div_mul_cancel₀ _ hv0.ne']
      rw [this, abs_mul, abs_of_pos hv0]
      exact mul_le_mul_of_nonneg_right hy' hv0.le
  choose z hz hz' hz'' using key
  refine ⟨z, ?_, fun i j hj => hz'' i j hj, fun i j => hz' i j⟩
  rw [h1]
  congr 2
  funext i j
  exact hz i j

/-- **C213 fails** when the columns to emulate are not a multiple of `n_out`: the call raises, for every network. -/
theorem emulate_remainder_fails (dataType normalization : String) (hdt : Spod.lower dataType = "real") {r nTrain nt : Nat}
    (train : Fin r → Fin nTrain → K) (test : Fin r → Fin nt → K) (hr : 0 < r) (hnz : ∀ i, ∃ j, train i j ≠ 0) (nIn nOut m s : Nat)
    (hs : 0 < s) (hs' : s < nOut) (hnt : nt = nIn + nOut * m + s) (net : List (List (Option K)) → List (List (Option K))) (hnet : IsNet r nOut net) :
    emulate dataType normalization nIn nOut net (table train) (table test) = .error "ValueError" := by
  obtain ⟨v, e, -⟩ := scaler_exists dataType normalization hdt train hr hnz
  have hh : ((table test).headD []).length = nt := by
    obtain ⟨r, rfl⟩ : ∃ k, r = k + 1 := ⟨r - 1, by omega⟩
    simp [table, List.ofFn_succ]
  unfold emulate
  rw [e]
  simp only
  rw [scaleReal_table, hh, transposed_table, inference_fails _ nIn nOut net (fun w => (hnet w).1) _ m s hs hs' (by rw [table_length]; exact hnt)]

/-- **C213 fails** for a mode that is zero in the training data: its emulated coefficients begin with nan, whatever the test data and the network. -/
theorem emulate_zero_row_fails (dataType normalization : String) (hdt : Spod.lower dataType = "real") (hn : Spod.lower normalization = "localmax")
    {r nTrain nt : Nat} (train : Fin r → Fin nTrain → K) (test : Fin r → Fin nt → K) (hT : 0 < nTrain) (i : Fin r) (hz : ∀ j, train i j = 0)
    (nIn nOut m : Nat) (hIn : 0 < nIn) (hOut : 0 < nOut) (hnt : nt = nIn + nOut * m) (net : List (List (Option K)) → List (List (Option K)))
    (hnet : IsNet r nOut net) :
    ∃ out, emulate dataType normalization nIn nOut net (table train) (table test) = .ok out ∧ ((out.getD i.1 []).getD 0 (some 0)) = none := by
  have hr : 0 < r := i.pos
  have h0t : 0 < nt := by omega
  have hh : ((table test).headD []).length = nt := by
    obtain ⟨r, rfl⟩ : ∃ k, r = k + 1 := ⟨r - 1, by omega⟩
    simp [table, List.ofFn_succ]
  obtain ⟨vec, e, hv⟩ := rowScales_spec normalization (table train) (by
    intro h
    have := congrArg List.length h
    rw [table_length] at this
    simp at this
    omega) (by
    intro row hrow
    unfold table at hrow
    obtain ⟨i, rfl⟩ := (List.mem_ofFn' _ _).1 hrow
    intro h
    have := congrArg List.length h
    simp at this
    omega)
  have hl : vec.length = r := by rw [forall₂_length hv, table_length]
  have hvi : vec.getD i.1 0 = 0 := by
    have h1 := (List.forall₂_iff_get.1 hv).2 i.1 (by rw [table_length]; exact i.2) (by rw [hl]; exact i.2)
    have h2 : (table train).get ⟨i.1, by rw [table_length]; exact i.2⟩ = List.ofFn (train i) := by simp [table]
    rw [h2] at h1
    unfold ScaleSpec at h1
    rw [if_pos hn] at h1
    obtain ⟨mm, ⟨_, x, hx, hx'⟩, h3⟩ := h1
    obtain ⟨j, rfl⟩ := (List.mem_ofFn' _ _).1 hx
    rw [hz j, abs_zero] at hx'
    rw [← hx', mul_zero] at h3
    simp only [List.getD_eq_getElem?_getD]
    rw [List.getElem?_eq_getElem (by rw [hl]; exact i.2)]
    exact h3
  have hvec : vec = List.ofFn fun i : Fin r => vec.getD i.1 0 := by
    apply List.ext_getElem (by simp [hl])
    intro q h1 h2
    simp [h1]
  obtain ⟨cols, c1, c2, c3, c4⟩ := inference_column_partial (List.replicate (table test).length (some (0 : K))) nIn nOut hOut net (fun w => (hnet w).1)
    (table fun (j : Fin nt) i => ndiv (test i j) (vec.getD i.1 0)) m (by rw [table_length]; exact hnt)
  refine ⟨descaleReal (transposed (table test).length cols) vec, ?_, ?_⟩
  · unfold emulate scalerReal
    rw [if_pos hdt, e]
    simp only
    have hs : scaleReal (table test) vec = table fun i j => ndiv (test i j) (vec.getD i.1 0) := by
      conv_lhs => rw [hvec]
      rw [scaleReal_table]
    rw [hs, hh, transposed_table, c1]
  · have h0 := c3 0 hIn
    rw [table_at (fun (j : Fin nt) i => ndiv (test i j) (vec.getD i.1 0)) ⟨0, h0t⟩] at h0
    obtain ⟨c, cs, rfl⟩ : ∃ c cs, cols = c :: cs := by
      cases cols with
      | nil => simp at h0
      | cons c cs => exact ⟨c, cs, rfl⟩
    simp only [List.getElem?_cons_zero, Option.some.injEq] at h0
    subst h0
    rw [table_length]
    unfold descaleReal transposed
    simp only [List.getD_eq_getElem?_getD, List.getElem?_zipWith, List.getElem?_map, List.getElem?_range i.2, Option.map_some,
      List.filterMap_cons, List.getElem?_eq_getElem (show i.1 < vec.length by rw [hl]; exact i.2)]
    simp
    rw [← List.getD_eq_getElem?_getD, hvi]
    simp [ndiv]

/-! ### complex coefficients -/

omit [IsStrictOrderedRing K] in
theorem scaleComplex_table {r n : Nat} (C : Fin r → Fin n → K × K) (v : Fin r → K × K) :
    scaleComplex (table C) (List.ofFn v) = table fun i j => (ndiv (C i j).1 (v i).1, ndiv (C i j).2 (v i).2) := by
  unfold scaleComplex table
  rw [zipWith_ofFn]
  congr 1
  funext i
  rw [List.map_ofFn]
  rfl

omit [LinearOrder K] [IsStrictOrderedRing K] in
theorem descaleComplex_table {r n : Nat} (C : Fin r → Fin n → Option K × Option K) (v : Fin r → K × K) :
    descaleComplex (table C) (List.ofFn v) = table fun i j => ((C i j).1.map (· * (v i).1), (C i j).2.map (· * (v i).2)) := by
  unfold descaleComplex table
  rw [zipWith_ofFn]
  congr 1
  funext i
  rw [List.map_ofFn]
  rfl

theorem table_map {α β} {r n : Nat} (C : Fin r → Fin n → α) (f : α → β) : (table C).map (fun row => row.map f) = table fun i j => f (C i j) := by
  unfold table
  rw [List.map_ofFn]
  congr 1
  funext i
  simp [List.map_ofFn, Function.comp_def]

theorem zip_entry {α β} (za : α) (zb : β) (r n : Nat) (a : List (List α)) (b : List (List β)) (ha : a.length = n) (hb : b.length = n)
    (ha' : ∀ c ∈ a, c.length = r) (hb' : ∀ c ∈ b, c.length = r) (l i : Nat) (hl : l < n) (hi : i < r) :
    ((List.zipWith List.zip a b).getD l []).getD i (za, zb) = ((a.getD l []).getD i za, (b.getD l []).getD i zb) := by
  have h1 := ha' _ (List.getElem_mem (show l < a.length by omega))
  have h2 := hb' _ (List.getElem_mem (show l < b.length by omega))
  simp [ha, hb, hl, h1, h2, hi]

/-- the two vectors of factors -/
theorem complex_scaler_exists (normalization : String) {r nTrain : Nat} (train : Fin r → Fin nTrain → K × K) (hr : 0 < r)
    (hre : ∀ i, ∃ j, (train i j).1 ≠ 0) (him : ∀ i, ∃ j, (train i j).2 ≠ 0) :
    ∃ v : Fin r → K × K, scalerComplex "complex" normalization (table train) = .ok (List.ofFn v) ∧ ∀ i, 0 < (v i).1 ∧ 0 < (v i).2 := by
  have hd : Spod.lower "real" = "real" := by decide +kernel
  obtain ⟨a, ea, ha⟩ := scaler_exists "real" normalization hd (fun i j => (train i j).1) hr hre
  obtain ⟨b, eb, hb⟩ := scaler_exists "real" normalization hd (fun i j => (train i j).2) hr him
  unfold scalerReal at ea eb
  rw [if_pos hd] at ea eb
  refine ⟨fun i => (a i, b i), ?_, fun i => ⟨(ha i).1, (hb i).1⟩⟩
  unfold scalerComplex
  rw [if_pos rfl, table_map train Prod.fst, table_map train Prod.snd]
  cases h1 : rowScales normalization (table fun i j => (train i j).1) with
  | none => rw [h1] at ea; simp at ea
  | some x =>
    cases h2 : rowScales normalization (table fun i j => (train i j).2) with
    | none => rw [h2] at eb; simp at eb
    | some y =>
      rw [h1] at ea
      rw [h2] at eb
      simp only [Except.ok.injEq] at ea eb
      subst ea eb
      simp only [Except.ok.injEq]
      rw [List.zip, zipWith_ofFn]

/-- **C213 (complex coefficients).** Every row of the training data has a real and an imaginary part that is not zero: if the network of the real
    parts is right up to `ε` on the scaled real parts, and that of the imaginary parts on the scaled imaginary parts (or the test data are real),
    both parts of the emulated coefficients are right up to `ε` times their factor. -/
theorem emulate_complex_error (normalization : String) {r nTrain nt : Nat} (train : Fin r → Fin nTrain → K × K) (test : Fin r → Fin nt → K × K)
    (hr : 0 < r) (hre : ∀ i, ∃ j, (train i j).1 ≠ 0) (him : ∀ i, ∃ j, (train i j).2 ≠ 0) (nIn nOut m : Nat) (hOut : 0 < nOut)
    (hnt : nt = nIn + nOut * m) (netRe netIm : List (List (Option K)) → List (List (Option K))) (hnR : IsNet r nOut netRe) (hnI : IsNet r nOut netIm)
    (v : Fin r → K × K) (hv : scalerComplex "complex" normalization (table train) = .ok (List.ofFn v)) (ε : K) (hε : 0 ≤ ε)
    (haR : ∀ i j k l, k < m → l < nOut → j.1 = nIn + k * nOut + l →
      ∃ y, ((netRe (scaledWindow (fun i j => (test i j).1) (fun i => (v i).1) (k * nOut) nIn)).getD l []).getD i.1 none = some y ∧
        |y - (test i j).1 / (v i).1| ≤ ε)
    (haI : (∃ i j, (test i j).2 ≠ 0) → ∀ i j k l, k < m → l < nOut → j.1 = nIn + k * nOut + l →
      ∃ y, ((netIm (scaledWindow (fun i j => (test i j).2) (fun i => (v i).2) (k * nOut) nIn)).getD l []).getD i.1 none = some y ∧
        |y - (test i j).2 / (v i).2| ≤ ε) :
    ∃ out : Fin r → Fin nt → K × K,
      emulateComplex "complex" normalization nIn nOut netRe netIm (table train) (table test) = .ok (table fun i j => (some (out i j).1, some (out i j).2)) ∧
      (∀ i j, j.1 < nIn → out i j = test i j) ∧
      ∀ i j, |(out i j).1 - (test i j).1| ≤ ε * (v i).1 ∧ |(out i j).2 - (test i j).2| ≤ ε * (v i).2 := by
  obtain ⟨v', e, hp⟩ := complex_scaler_exists normalization train hr hre him
  obtain rfl : v' = v := by
    rw [hv, Except.ok.injEq] at e
    exact (List.ofFn_injective e).symm
  have hs : scaleComplex (table test) (List.ofFn v') = table fun i j => (some ((test i j).1 / (v' i).1), some ((test i j).2 / (v' i).2)) := by
    rw [scaleComplex_table]
    congr 1
    funext i j
    simp [ndiv, (hp i).1.ne', (hp i).2.ne']
  have hh : ((table test).headD []).length = nt := by
    obtain ⟨r, rfl⟩ : ∃ k, r = k + 1 := ⟨r - 1, by omega⟩
    simp [table, List.ofFn_succ]
  obtain ⟨imag, himag⟩ : ∃ b, (table fun i j => (some ((test i j).1 / (v' i).1), some ((test i j).2 / (v' i).2))).any
      (fun row => row.any fun z => z.2 != some 0) = b := ⟨_, rfl⟩
  have himag' : imag = true ↔ ∃ i j, (test i j).2 ≠ 0 := by
    rw [← himag]
    simp only [table, List.any_eq_true, List.mem_ofFn', Set.mem_range, exists_exists_eq_and, bne_iff_ne, ne_eq, Option.some.injEq]
    constructor
    · rintro ⟨i, j, h⟩
      exact ⟨i, j, fun h0 => h (by rw [h0, zero_div])⟩
    · rintro ⟨i, j, h⟩
      exact ⟨i, j, div_ne_zero h (hp i).2.ne'⟩
  let predict : List (List (Option K × Option K)) → List (List (Option K × Option K)) := fun win =>
    if imag then List.zipWith List.zip (netRe (win.map fun c => c.map Prod.fst)) (netIm (win.map fun c => c.map Prod.snd))
    else (netRe (win.map fun c => c.map Prod.fst)).map fun c => c.map fun x => (x, some 0)
  have hpl : ∀ w, (predict w).length = nOut := by
    intro w
    simp only [predict]
    split
    · rw [List.length_zipWith, (hnR _).1, (hnI _).1, Nat.min_self]
    · rw [List.length_map, (hnR _).1]
  have hpc : ∀ w, ∀ c ∈ predict w, c.length = r := by
    intro w c hc
    simp only [predict] at hc
    split at hc
    · obtain ⟨q, hq, rfl⟩ := List.getElem_of_mem hc
      rw [List.length_zipWith] at hq
      rw [List.getElem_zipWith, List.length_zip, (hnR _).2 _ (List.getElem_mem _), (hnI _).2 _ (List.getElem_mem _), Nat.min_self]
    · obtain ⟨c', hc', rfl⟩ := List.mem_map.1 hc
      rw [List.length_map, (hnR _).2 _ hc']
  obtain ⟨cols, c1, c2, c3, c4⟩ := inference_column_partial (List.replicate (table test).length (some (0 : K), some (0 : K))) nIn nOut hOut predict hpl
    (table fun (j : Fin nt) i => (some ((test i j).1 / (v' i).1), some ((test i j).2 / (v' i).2))) m (by rw [table_length]; exact hnt)
  have hcl : cols.length = nt := by rw [c2, table_length]
  have hwR : ∀ k, (Rd.pslice (table fun (j : Fin nt) i => (some ((test i j).1 / (v' i).1), some ((test i j).2 / (v' i).2))) (k * nOut) (k * nOut + nIn)).map
      (fun c => c.map Prod.fst) = scaledWindow (fun i j => (test i j).1) (fun i => (v' i).1) (k * nOut) nIn := by
    intro k
    unfold Rd.pslice scaledWindow
    rw [Nat.add_sub_cancel_left, List.map_take, List.map_drop, table_map _ Prod.fst]
  have hwI : ∀ k, (Rd.pslice (table fun (j : Fin nt) i => (some ((test i j).1 / (v' i).1), some ((test i j).2 / (v' i).2))) (k * nOut) (k * nOut + nIn)).map
      (fun c => c.map Prod.snd) = scaledWindow (fun i j => (test i j).2) (fun i => (v' i).2) (k * nOut) nIn := by
    intro k
    unfold Rd.pslice scaledWindow
    rw [Nat.add_sub_cancel_left, List.map_take, List.map_drop, table_map _ Prod.snd]
  have hlen : ∀ c ∈ cols, c.length = r := by
    intro c hc
    obtain ⟨q, hq, rfl⟩ := List.getElem_of_mem hc
    by_cases h : q < nIn
    · have := c3 q h
      rw [List.getElem?_eq_getElem hq] at this
      have ht := table_at (fun (j : Fin nt) i => (some ((test i j).1 / (v' i).1), some ((test i j).2 / (v' i).2))) ⟨q, by omega⟩
      simp only at ht
      rw [ht] at this
      rw [Option.some.inj this]
      simp
    · have hd := Nat.div_add_mod (q - nIn) nOut
      have hm := Nat.mod_lt (q - nIn) hOut
      have hk : (q - nIn) / nOut < m := by
        rw [Nat.div_lt_iff_lt_mul hOut, Nat.mul_comm]; omega
      have := c4 ((q - nIn) / nOut) ((q - nIn) % nOut) hk hm
      rw [show nIn + (q - nIn) / nOut * nOut + (q - nIn) % nOut = q by rw [Nat.mul_comm] at hd; omega, List.getElem?_eq_getElem hq] at this
      exact hpc _ _ (List.mem_of_getElem? this.symm)
  have htab := table_of (none, none) nt r cols hcl hlen
  have key : ∀ i j, ∃ z : K × K, (((cols.getD j.1 []).getD i.1 (none, none)).1.map (· * (v' i).1), ((cols.getD j.1 []).getD i.1 (none, none)).2.map (· * (v' i).2)) =
        (some z.1, some z.2) ∧
      |z.1 - (test i j).1| ≤ ε * (v' i).1 ∧ |z.2 - (test i j).2| ≤ ε * (v' i).2 ∧ (j.1 < nIn → z = test i j) := by
    intro i j
    by_cases hj : j.1 < nIn
    · refine ⟨test i j, ?_, ?_, ?_, fun _ => rfl⟩
      · have := c3 j hj
        rw [table_at (fun (j : Fin nt) i => (some ((test i j).1 / (v' i).1), some ((test i j).2 / (v' i).2))) j] at this
        simp only [List.getD_eq_getElem?_getD, this, Option.getD_some]
        simp [(hp i).1.ne', (hp i).2.ne']
      · rw [sub_self, abs_zero]
        exact mul_nonneg hε (hp i).1.le
      · rw [sub_self, abs_zero]
        exact mul_nonneg hε (hp i).2.le
    · have hd := Nat.div_add_mod (j.1 - nIn) nOut
      have hm := Nat.mod_lt (j.1 - nIn) hOut
      have hk : (j.1 - nIn) / nOut < m := by
        rw [Nat.div_lt_iff_lt_mul hOut, Nat.mul_comm]; omega
      have hj' : j.1 = nIn + (j.1 - nIn) / nOut * nOut + (j.1 - nIn) % nOut := by rw [Nat.mul_comm] at hd; omega
      have hc := c4 _ _ hk hm
      rw [← hj'] at hc
      have hcol : cols.getD j.1 [] = (predict (Rd.pslice (table fun (j : Fin nt) i => (some ((test i j).1 / (v' i).1), some ((test i j).2 / (v' i).2)))
          ((j.1 - nIn) / nOut * nOut) ((j.1 - nIn) / nOut * nOut + nIn))).getD ((j.1 - nIn) % nOut) [] := by
        simp only [List.getD_eq_getElem?_getD, hc]
      obtain ⟨y, hy, hy'⟩ := haR i j _ _ hk hm hj'
      have hbound : ∀ (y a f : K), 0 < f → |y - a / f| ≤ ε → |y * f - a| ≤ ε * f := by
        intro y a f hf h
        rw [show y * f - a = (y - a / f) * f by rw [sub_mul, div_mul_cancel₀ _ hf.ne'], abs_mul, abs_of_pos hf]
        exact mul_le_mul_of_nonneg_right h hf.le
      rcases Bool.eq_false_or_eq_true imag with hi | hi
      · obtain ⟨y2, hy2, hy2'⟩ := haI (himag'.1 hi) i j _ _ hk hm hj'
        refine ⟨(y * (v' i).1, y2 * (v' i).2), ?_, hbound _ _ _ (hp i).1 hy', hbound _ _ _ (hp i).2 hy2', fun h => absurd h hj⟩
        rw [hcol]
        simp only [predict, hi, if_true]
        rw [zip_entry none none r nOut _ _ (hnR _).1 (hnI _).1 (hnR _).2 (hnI _).2 _ _ hm i.2, hwR, hwI, hy, hy2]
        rfl
      · have h0 : (test i j).2 = 0 := by
          by_contra h
          have := himag'.2 ⟨i, j, h⟩
          rw [hi] at this
          simp at this
        refine ⟨(y * (v' i).1, 0), ?_, hbound _ _ _ (hp i).1 hy', ?_, fun h => absurd h hj⟩
        · rw [hcol]
          simp only [predict, hi, Bool.false_eq_true, if_false]
          rw [hwR]
          have hl1 : (j.1 - nIn) % nOut < (netRe (scaledWindow (fun i j => (test i j).1) (fun i => (v' i).1) ((j.1 - nIn) / nOut * nOut) nIn)).length := by
            rw [(hnR _).1]; exact hm
          have hl2 := (hnR _).2 _ (List.getElem_mem hl1)
          simp only [List.getD_eq_getElem?_getD, List.getElem?_map, List.getElem?_eq_getElem hl1, Option.map_some, Option.getD_some,
            List.getElem?_eq_getElem (show i.1 < _ from lt_of_lt_of_eq i.2 hl2.symm)] at hy ⊢
          rw [hy]
          simp
        · rw [h0, sub_self, abs_zero]
          exact mul_nonneg hε (hp i).2.le
  choose z hz hz1 hz2 hz3 using key
  refine ⟨z, ?_, fun i j hj => hz3 i j hj, fun i j => ⟨hz1 i j, hz2 i j⟩⟩
  unfold emulateComplex
  rw [e]
  simp only
  rw [hs, hh, transposed_table, himag]
  rw [show (fun win => if imag = true then List.zipWith List.zip (netRe (win.map fun c => c.map Prod.fst)) (netIm (win.map fun c => c.map Prod.snd))
    else (netRe (win.map fun c => c.map Prod.fst)).map fun c => c.map fun x => (x, some 0)) = predict from rfl, c1]
  simp only [table_length]
  rw [htab, transposed_table, descaleComplex_table]
  congr 2
  funext i j
  exact hz i j

/-- the factors of `localmax`: zero for a row of zeros -/
theorem rowScales_zero (normalization : String) (hn : Spod.lower normalization = "localmax") {r nTrain : Nat} (train : Fin r → Fin nTrain → K)
    (hr : 0 < r) (hT : 0 < nTrain) : ∃ v : Fin r → K, rowScales normalization (table train) = some (List.ofFn v) ∧ ∀ i, (∀ j, train i j = 0) → v i = 0 := by
  obtain ⟨vec, e, hv⟩ := rowScales_spec normalization (table train) (by
    intro h
    have := congrArg List.length h
    rw [table_length] at this
    simp at this
    omega) (by
    intro row hrow
    unfold table at hrow
    obtain ⟨i, rfl⟩ := (List.mem_ofFn' _ _).1 hrow
    intro h
    have := congrArg List.length h
    simp at this
    omega)
  have hl : vec.length = r := by rw [forall₂_length hv, table_length]
  have hvec : vec = List.ofFn fun i : Fin r => vec.getD i.1 0 := by
    apply List.ext_getElem (by simp [hl])
    intro q h1 h2
    simp [h1]
  refine ⟨fun i => vec.getD i.1 0, by rw [← hvec]; exact e, fun i hz => ?_⟩
  have h1 := (List.forall₂_iff_get.1 hv).2 i.1 (by rw [table_length]; exact i.2) (by rw [hl]; exact i.2)
  have h2 : (table train).get ⟨i.1, by rw [table_length]; exact i.2⟩ = List.ofFn (train i) := by simp [table]
  rw [h2] at h1
  unfold ScaleSpec at h1
  rw [if_pos hn] at h1
  obtain ⟨mm, ⟨_, x, hx, hx'⟩, h3⟩ := h1
  obtain ⟨j, rfl⟩ := (List.mem_ofFn' _ _).1 hx
  rw [hz j, abs_zero] at hx'
  rw [← hx', mul_zero] at h3
  simp only [List.getD_eq_getElem?_getD]
  rw [List.getElem?_eq_getElem (by rw [hl]; exact i.2)]
  exact h3

/-- **C213 fails for complex coefficients** with a row that is real in the training data, as the coefficients of the zero frequency of real data are:
    its emulated imaginary parts begin with nan, whatever the test data and the networks. -/
theorem emulate_real_row_fails (normalization : String) (hn : Spod.lower normalization = "localmax")
    {r nTrain nt : Nat} (train : Fin r → Fin nTrain → K × K) (test : Fin r → Fin nt → K × K) (hT : 0 < nTrain) (i : Fin r) (hz : ∀ j, (train i j).2 = 0)
    (nIn nOut m : Nat) (hIn : 0 < nIn) (hOut : 0 < nOut) (hnt : nt = nIn + nOut * m) (netRe netIm : List (List (Option K)) → List (List (Option K)))
    (hnR : IsNet r nOut netRe) (hnI : IsNet r nOut netIm) :
    ∃ out, emulateComplex "complex" normalization nIn nOut netRe netIm (table train) (table test) = .ok out ∧
      ((out.getD i.1 []).getD 0 (some 0, some 0)).2 = none := by
  have hr : 0 < r := i.pos
  have h0t : 0 < nt := by omega
  have hh : ((table test).headD []).length = nt := by
    obtain ⟨r, rfl⟩ : ∃ k, r = k + 1 := ⟨r - 1, by omega⟩
    simp [table, List.ofFn_succ]
  obtain ⟨a, ea, -⟩ := rowScales_zero normalization hn (fun i j => (train i j).1) hr hT
  obtain ⟨b, eb, hb⟩ := rowScales_zero normalization hn (fun i j => (train i j).2) hr hT
  have hbi : b i = 0 := hb i hz
  have e : scalerComplex "complex" normalization (table train) = .ok (List.ofFn fun i => (a i, b i)) := by
    unfold scalerComplex
    rw [if_pos rfl, table_map train Prod.fst, table_map train Prod.snd, ea, eb]
    simp only [Except.ok.injEq]
    rw [List.zip, zipWith_ofFn]
  obtain ⟨imag, himag⟩ : ∃ b', (table fun i j => (ndiv (test i j).1 (a i), ndiv (test i j).2 (b i))).any
      (fun row => row.any fun z => z.2 != some 0) = b' := ⟨_, rfl⟩
  let predict : List (List (Option K × Option K)) → List (List (Option K × Option K)) := fun win =>
    if imag then List.zipWith List.zip (netRe (win.map fun c => c.map Prod.fst)) (netIm (win.map fun c => c.map Prod.snd))
    else (netRe (win.map fun c => c.map Prod.fst)).map fun c => c.map fun x => (x, some 0)
  have hpl : ∀ w, (predict w).length = nOut := by
    intro w
    simp only [predict]
    split
    · rw [List.length_zipWith, (hnR _).1, (hnI _).1, Nat.min_self]
    · rw [List.length_map, (hnR _).1]
  obtain ⟨cols, c1, c2, c3, c4⟩ := inference_column_partial (List.replicate (table test).length (some (0 : K), some (0 : K))) nIn nOut hOut predict hpl
    (table fun (j : Fin nt) i => (ndiv (test i j).1 (a i), ndiv (test i j).2 (b i))) m (by rw [table_length]; exact hnt)
  refine ⟨descaleComplex (transposed (table test).length cols) (List.ofFn fun i => (a i, b i)), ?_, ?_⟩
  · unfold emulateComplex
    rw [e]
    simp only
    rw [scaleComplex_table, hh, transposed_table, himag]
    rw [show (fun win => if imag = true then List.zipWith List.zip (netRe (win.map fun c => c.map Prod.fst)) (netIm (win.map fun c => c.map Prod.snd))
      else (netRe (win.map fun c => c.map Prod.fst)).map fun c => c.map fun x => (x, some 0)) = predict from rfl, c1]
  · have h0 := c3 0 hIn
    rw [table_at (fun (j : Fin nt) i => (ndiv (test i j).1 (a i), ndiv (test i j).2 (b i))) ⟨0, h0t⟩] at h0
    obtain ⟨c, cs, rfl⟩ : ∃ c cs, cols = c :: cs := by
      cases cols with
      | nil => simp at h0
      | cons c cs => exact ⟨c, cs, rfl⟩
    simp only [List.getElem?_cons_zero, Option.some.injEq] at h0
    subst h0
    rw [table_length]
    unfold descaleComplex transposed
    simp only [List.getD_eq_getElem?_getD, List.getElem?_zipWith, List.getElem?_map, List.getElem?_range i.2, Option.map_some,
      List.filterMap_cons]
    simp [hbi, ndiv]

end
/-! ### C214: the emulated fields -/

open Verif.Proj in
/-- real coefficients as the array passed to `compute_reconstruction` -/
noncomputable def realCoeffs {k nt : Nat} (C : Fin k → Fin nt → ℝ) : Arr ℂ := matArr (Matrix.of fun i j => ((C i j : ℝ) : ℂ))

open Verif.Proj in
/-- reconstruction of all times from given real coefficients and stored real modes -/
theorem given_fields (F : Folder) (sh : List Nat) (hpos : 0 < size sh) (hax : F.maxAxis < sh.length) {k nt : Nat} (hnt : 0 < nt)
    (Φ : Fin (size sh) → Fin k → ℝ) (L : Arr ℝ) (hL : L.shape = sh) (h1 : F.modesR = npSave (gridArr sh (Matrix.of fun x j => ((Φ x j : ℝ) : ℂ))))
    (h2 : F.ltm = npSave L) (C : Fin k → Fin nt → ℝ) (comms : List Comm) (sched : Sched) (hrun : IsRun comms sched) :
    ∃ f : NpyFile ℂ, PodFit.podReconstruct F (some (realCoeffs C)) (.str "all") comms sched = some f ∧ f.shape = nt :: sh ∧
      ∀ (t : Fin nt) (x : Fin (size sh)), fileEntry f (t.1 :: unravel sh x) = some ((L.at' (unravel sh x) + ∑ j, Φ x j * C j t : ℝ) : ℂ) := by
  subst hL
  have htsne : ((List.range nt).map fun (k : Nat) => (k : Int)) ≠ [] := by
    intro h
    have := congrArg List.length h
    rw [List.length_map, List.length_range, List.length_nil] at this
    omega
  obtain ⟨R, hR1, hR2, hR3⟩ := reconstruction_file F (gridArr L.shape (Matrix.of fun x j => ((Φ x j : ℝ) : ℂ))) L hax h1 h2 hpos
    (some (realCoeffs C)) (realCoeffs C) rfl k nt rfl rfl (.str "all") _ (all_times nt) htsne comms sched hrun
  refine ⟨npSave R, (if_pos rfl).trans hR1, ?_, fun t x => ?_⟩
  · show R.shape = _
    rw [hR2]
    simp
  · have hin : InRange R.shape (t.1 :: unravel L.shape x) := by
      rw [hR2]
      exact ⟨by simp, inRange_unravel x.2⟩
    rw [fileEntry_npSave _ _ hin, hR3 t.1 _ (by simp)]
    have hg : ((List.range nt).map fun (k : Nat) => (k : Int)).getD t 0 = (t.1 : Int) := by
      simp [List.getD_eq_getElem?_getD, t.2]
    rw [hg, if_neg (by omega), Int.toNat_natCast, Finset.sum_range]
    congr 1
    push_cast
    congr 1
    refine Finset.sum_congr rfl fun j _ => ?_
    have e1 : (gridArr L.shape (Matrix.of fun x j => ((Φ x j : ℝ) : ℂ))).at' (unravel L.shape x ++ [j.1]) = ((Φ x j : ℝ) : ℂ) := by
      have hr : ravel L.shape (unravel L.shape x) = x := ravel_unravel x.2
      simp [gridArr, hr, x.2]
    have e2 : (realCoeffs C).at' [j.1, t.1] = ((C j t : ℝ) : ℂ) := by
      simp [realCoeffs, matArr, j.2, t.2]
    rw [e1, e2]

/-- sums of orthonormal fields are as far apart as their coefficients -/
theorem orthonormal_distance {X : Type} [Fintype X] {k : Nat} (w : X → ℝ) (Φ : X → Fin k → ℝ)
    (h : ∀ i j, ∑ x, w x * (Φ x i * Φ x j) = if i = j then 1 else 0) (d : Fin k → ℝ) : ∑ x, w x * (∑ j, Φ x j * d j) ^ 2 = ∑ j, d j ^ 2 := by
  have : ∀ x, w x * (∑ j, Φ x j * d j) ^ 2 = ∑ i, ∑ j, d i * d j * (w x * (Φ x i * Φ x j)) := by
    intro x
    rw [sq, Finset.sum_mul_sum, Finset.mul_sum]
    refine Finset.sum_congr rfl fun i _ => ?_
    rw [Finset.mul_sum]
    exact Finset.sum_congr rfl fun j _ => by ring
  simp only [this]
  rw [Finset.sum_comm]
  refine Finset.sum_congr rfl fun i _ => ?_
  rw [Finset.sum_comm]
  simp only [← Finset.mul_sum, h]
  simp [sq]

open Verif.Proj in
theorem stored_grid (S : PodFit.Stored) (sh : List Nat) (n : Nat) (hn : S.nModes = n) (A : Matrix (Fin (size sh)) (Fin n) ℂ)
    (h : ∀ i, ∀ j : Fin n, (S.modes.data (i.1 * n + j)).getD default = A i j) : (gridArr sh (podStoredPhi S sh)).Eqv (gridArr sh A) := by
  subst hn
  have : podStoredPhi S sh = A := by
    ext i j
    exact h i j
  rw [this]
  exact ⟨rfl, fun _ _ => rfl⟩

open Verif.Proj in
/-- **C214 (distances).** After a POD fit whose stored modes belong to positive, distinct eigenvalues: fields reconstructed from two sets of
    coefficients are, snapshot by snapshot and in the stored weights, exactly as far apart as the coefficients. -/
theorem pod_given_distance {c weights files dims mk n} (R : PodRun c weights files dims mk n) (solver : PodFit.Solver) (lamV) (hs : PodSolver solver lamV)
    (mi : Option (List Nat)) (c1 c2 c3 c4 : List Comm) (s1 s2 s3 s4 : Sched) (h1 : IsRun c1 s1) (h2 : IsRun c2 s2) (h3 : IsRun c3 s3) (h4 : IsRun c4 s4) :
    ∃ o, PodFit.podFit c weights solver files c1 s1 = some o ∧
      ((∀ j < n, 0 < (o.eigs.getD j 0).re) → (∀ i < n, ∀ j < n, o.eigs.getD i 0 = o.eigs.getD j 0 → i = j) →
        ∃ G, PodFit.podProject (PodFit.storedOf c o) mi files.flatten c2 s2 = some G ∧ ∀ (nt : Nat), 0 < nt → ∀ (a b : Fin n → Fin nt → ℝ),
          ∃ (fa fb : NpyFile ℂ) (va vb : Fin nt → Fin (size (dims ++ [1])) → ℝ),
            PodFit.podReconstruct G (some (realCoeffs a)) (.str "all") c3 s3 = some fa ∧
            PodFit.podReconstruct G (some (realCoeffs b)) (.str "all") c4 s4 = some fb ∧
            fa.shape = nt :: (dims ++ [1]) ∧ fb.shape = nt :: (dims ++ [1]) ∧
            (∀ (t : Fin nt) (x : Fin (size (dims ++ [1]))), fileEntry fa (t.1 :: unravel (dims ++ [1]) x) = some ((va t x : ℝ) : ℂ) ∧
              fileEntry fb (t.1 :: unravel (dims ++ [1]) x) = some ((vb t x : ℝ) : ℂ)) ∧
            ∀ t, ∑ x : Fin (size (dims ++ [1])), NpyFile.num o.weights x * (va t x - vb t x) ^ 2 = ∑ j, (a j t - b j t) ^ 2) := by
  have hpos1 : 0 < size (dims ++ [1]) := by rw [size_append, Nat.mul_one]; exact R.pos
  have hw : ∀ o, PodFit.podFit c weights solver files c1 s1 = some o → ∀ x : Fin (size (dims ++ [1])), NpyFile.num o.weights x =
      podW (weights.getD ⟨dims ++ [1], fun _ => 1⟩) (dims ++ [1]) x := by
    obtain ⟨o, lam, V, e1, e2, e3, e4, e5⟩ := pod_files_spec R solver lamV hs h1
    intro o' ho x
    rw [e1] at ho
    rw [← Option.some.inj ho]
    exact e4 x
  refine ⟨_, R.fit solver h1, ?_⟩
  intro hpos hdist
  replace hw := hw _ (R.fit solver h1)
  have hF := out_folder R solver
  have hfr : files.flatten ≠ [] := by
    have := R.n_pos
    have := R.n_le
    intro h
    rw [h] at this
    simp at this
    omega
  obtain ⟨ax, hmax, hproj⟩ := pod_projection_files _ mi files.flatten dims n hF hfr R.dims_ne
  have hax' : ax < (dims ++ [1]).length := by have := hmax.1; simp; omega
  set lam := (lamV files.flatten.length (corrMat (fitData mk (podD files.flatten (dims ++ [1]))) (podW (weights.getD ⟨dims ++ [1], fun _ => 1⟩) (dims ++ [1])))).1 with hlam
  set V := (lamV files.flatten.length (corrMat (fitData mk (podD files.flatten (dims ++ [1]))) (podW (weights.getD ⟨dims ++ [1], fun _ => 1⟩) (dims ++ [1])))).2 with hV
  have hE : EigBasis (corrMat (fitData mk (podD files.flatten (dims ++ [1]))) (podW (weights.getD ⟨dims ++ [1], fun _ => 1⟩) (dims ++ [1]))) lam V :=
    hs.eig _ _ (corr_symm _ _)
  have heigs : (podOut mk solver files.flatten (dims ++ [1]) (weights.getD ⟨dims ++ [1], fun _ => 1⟩) n).eigs = List.ofFn (fun i => ((lam i : ℝ) : ℂ)) := by
    simp only [podOut]
    rw [hs.real]
  have hlt : ∀ j : Fin n, j.1 < files.flatten.length := fun j => lt_of_lt_of_le j.2 R.n_le
  have hp : ∀ j : Fin n, 0 < lam (Fin.castLE R.n_le j) := by
    intro j
    have := hpos j j.2
    rw [heigs, ofFn_getD _ j.1 (hlt j), Complex.ofReal_re] at this
    exact this
  have hd : ∀ i j : Fin n, lam (Fin.castLE R.n_le i) = lam (Fin.castLE R.n_le j) → i = j := by
    intro i j h
    refine Fin.ext (hdist i i.2 j j.2 ?_)
    rw [heigs, ofFn_getD _ i.1 (hlt i), ofFn_getD _ j.1 (hlt j)]
    exact congrArg _ h
  have horth := pod_orthonormal_partial mk (podD files.flatten (dims ++ [1])) _ lam V hE n R.n_le hp hd
  have hG : (podFolderOf (PodFit.storedOf c (podOut mk solver files.flatten (dims ++ [1]) (weights.getD ⟨dims ++ [1], fun _ => 1⟩) n)) files.flatten
      (dims ++ [1]) ax).modesR = npSave (gridArr (dims ++ [1]) (Matrix.of fun x j =>
        ((Pod.modes mk (podD files.flatten (dims ++ [1])) lam V n R.n_le x j : ℝ) : ℂ))) := by
    refine npSave_congr (stored_grid _ (dims ++ [1]) n hF.nModes _ fun i j => ?_)
    show NpyFile.num (podOut mk solver files.flatten (dims ++ [1]) (weights.getD ⟨dims ++ [1], fun _ => 1⟩) n).modes (i.1 * n + j.1) = _
    simp only [podOut]
    rw [hs.real, grid_num _ _ _ i j]
    exact podPhi_real _ _ _ _ _ _ R.n_le hp i j
  refine ⟨_, hproj c2 s2 h2, fun nt hnt a b => ?_⟩
  obtain ⟨fa, a1, a2, a3⟩ := given_fields (podFolderOf (PodFit.storedOf c (podOut mk solver files.flatten (dims ++ [1])
      (weights.getD ⟨dims ++ [1], fun _ => 1⟩) n)) files.flatten (dims ++ [1]) ax) (dims ++ [1]) hpos1 hax' hnt
      (fun x j => Pod.modes mk (podD files.flatten (dims ++ [1])) lam V n R.n_le x j) (meanArr files.flatten (dims ++ [1])) rfl hG rfl a c3 s3 h3
  obtain ⟨fb, b1, b2, b3⟩ := given_fields (podFolderOf (PodFit.storedOf c (podOut mk solver files.flatten (dims ++ [1])
      (weights.getD ⟨dims ++ [1], fun _ => 1⟩) n)) files.flatten (dims ++ [1]) ax) (dims ++ [1]) hpos1 hax' hnt
      (fun x j => Pod.modes mk (podD files.flatten (dims ++ [1])) lam V n R.n_le x j) (meanArr files.flatten (dims ++ [1])) rfl hG rfl b c4 s4 h4
  · refine ⟨fa, fb, _, _, a1, b1, a2, b2, fun t x => ⟨a3 t x, b3 t x⟩, fun t => ?_⟩
    rw [← orthonormal_distance (fun x => podW (weights.getD ⟨dims ++ [1], fun _ => 1⟩) (dims ++ [1]) x)
      (fun x j => Pod.modes mk (podD files.flatten (dims ++ [1])) lam V n R.n_le x j) (fun i j => horth i j) (fun j => a j t - b j t)]
    refine Finset.sum_congr rfl fun x _ => ?_
    rw [hw x]
    congr 2
    rw [add_sub_add_left_eq_sub, ← Finset.sum_sub_distrib]
    exact Finset.sum_congr rfl fun j _ => by ring

open Verif.Proj in
/-- **C214.** Emulation of POD coefficients, end to end: fit, folder of the training data, emulated test coefficients, and the reconstructions from the
    test and from the emulated coefficients, each on its own number of ranks.  If the network is right up to `ε` on the scaled test coefficients, the
    two reconstructions agree in the first `n_in` snapshots, and the weighted squared difference of every snapshot is at most `ε²` times the sum of the
    squared scaling factors. -/
theorem emulated_fields_partial {c weights files dims mk n} (R : PodRun c weights files dims mk n) (solver : PodFit.Solver) (lamV) (hs : PodSolver solver lamV)
    (mi : Option (List Nat)) (c1 c2 c3 c4 : List Comm) (s1 s2 s3 s4 : Sched) (h1 : IsRun c1 s1) (h2 : IsRun c2 s2) (h3 : IsRun c3 s3) (h4 : IsRun c4 s4) :
    ∃ o, PodFit.podFit c weights solver files c1 s1 = some o ∧
      ((∀ j < n, 0 < (o.eigs.getD j 0).re) → (∀ i < n, ∀ j < n, o.eigs.getD i 0 = o.eigs.getD j 0 → i = j) →
        ∃ G, PodFit.podProject (PodFit.storedOf c o) mi files.flatten c2 s2 = some G ∧
          ∀ (dataType normalization : String) (nTrain nt : Nat) (train : Fin n → Fin nTrain → ℝ) (test : Fin n → Fin nt → ℝ) (nIn nOut m : Nat)
            (net : List (List (Option ℝ)) → List (List (Option ℝ))) (v : Fin n → ℝ) (ε : ℝ), Spod.lower dataType = "real" →
            (∀ i, ∃ j, train i j ≠ 0) → 0 < nOut → 0 < nt → nt = nIn + nOut * m → IsNet n nOut net →
            scalerReal dataType normalization (table train) = .ok (List.ofFn v) → 0 ≤ ε →
            (∀ i j k l, k < m → l < nOut → j.1 = nIn + k * nOut + l →
              ∃ y, ((net (scaledWindow test v (k * nOut) nIn)).getD l []).getD i.1 none = some y ∧ |y - test i j / v i| ≤ ε) →
            ∃ (out : Fin n → Fin nt → ℝ) (fp fe : NpyFile ℂ) (vp ve : Fin nt → Fin (size (dims ++ [1])) → ℝ),
              emulate dataType normalization nIn nOut net (table train) (table test) = .ok (table fun i j => some (out i j)) ∧
              PodFit.podReconstruct G (some (realCoeffs test)) (.str "all") c3 s3 = some fp ∧
              PodFit.podReconstruct G (some (realCoeffs out)) (.str "all") c4 s4 = some fe ∧
              (∀ (t : Fin nt) (x : Fin (size (dims ++ [1]))), fileEntry fp (t.1 :: unravel (dims ++ [1]) x) = some ((vp t x : ℝ) : ℂ) ∧
                fileEntry fe (t.1 :: unravel (dims ++ [1]) x) = some ((ve t x : ℝ) : ℂ)) ∧
              (∀ t, t.1 < nIn → ∑ x : Fin (size (dims ++ [1])), NpyFile.num o.weights x * (vp t x - ve t x) ^ 2 = 0) ∧
              ∀ t, ∑ x : Fin (size (dims ++ [1])), NpyFile.num o.weights x * (vp t x - ve t x) ^ 2 ≤ ε ^ 2 * ∑ i, v i ^ 2) := by
  obtain ⟨o, e1, e2⟩ := pod_given_distance R solver lamV hs mi c1 c2 c3 c4 s1 s2 s3 s4 h1 h2 h3 h4
  refine ⟨o, e1, fun hpos hdist => ?_⟩
  obtain ⟨G, g1, g2⟩ := e2 hpos hdist
  refine ⟨G, g1, ?_⟩
  intro dataType normalization nTrain nt train test nIn nOut m net v ε hdt hnz hOut hnt hlen hnet hv hε hacc
  obtain ⟨out, o1, o2, o3⟩ := emulate_error dataType normalization hdt train test R.n_pos hnz nIn nOut m hOut hlen net hnet v hv ε hε hacc
  obtain ⟨fp, fe, vp, ve, p1, p2, -, -, p3, p4⟩ := g2 nt hnt test out
  refine ⟨out, fp, fe, vp, ve, o1, p1, p2, p3, fun t ht => ?_, fun t => ?_⟩
  · rw [p4 t]
    exact Finset.sum_eq_zero fun j _ => by rw [o2 j t ht, sub_self, zero_pow two_ne_zero]
  · rw [p4 t, Finset.mul_sum]
    refine Finset.sum_le_sum fun j _ => ?_
    rw [← mul_pow, ← sq_abs (test j t - out j t), abs_sub_comm]
    exact pow_le_pow_left₀ (abs_nonneg _) (o3 j t) 2

/-! ### Cases that meet the hypotheses -/

/-- a network that repeats the last column it was given -/
def persist {α} (z : α) (r : Nat) : List (List α) → List (List α) := fun w => [List.ofFn fun i : Fin r => (w.getLastD []).getD i.1 z]

theorem persist_isNet {α} (z : α) (r : Nat) : IsNet r 1 (persist z r) := fun w => ⟨rfl, fun c hc => by
  simp only [persist, List.mem_singleton] at hc
  rw [hc, List.length_ofFn]⟩

/-- on coefficients constant in time it is right, up to nothing -/
theorem persist_exact {r nt : Nat} (c : Fin r → ℝ) (v : Fin r → ℝ) (i : Fin r) (j : Fin nt) (k l : Nat) (hk : k < nt - 1) (hl : l < 1)
    (hj : j.1 = 1 + k * 1 + l) :
    ∃ y, ((persist none r (scaledWindow (fun i (_ : Fin nt) => c i) v (k * 1) 1)).getD l []).getD i.1 none = some y ∧ |y - c i / v i| ≤ 0 := by
  obtain rfl : l = 0 := by omega
  refine ⟨c i / v i, ?_, by simp⟩
  have hw : scaledWindow (fun i (_ : Fin nt) => c i) v (k * 1) 1 = [List.ofFn fun i => some (c i / v i)] := by
    unfold scaledWindow
    have ht := table_at (fun (j : Fin nt) (i : Fin r) => some (c i / v i)) ⟨k, by omega⟩
    apply List.ext_getElem?
    intro q
    rw [List.getElem?_take]
    cases q with
    | zero => simpa using ht
    | succ q => simp
  rw [hw]
  simp [persist]

/-- constant coefficients of two modes are emulated exactly -/
example : ∃ out : Fin 2 → Fin 4 → ℝ, emulate "real" "localmax" 1 1 (persist none 2) (table (![![1, -2], ![0, 3]] : Fin 2 → Fin 2 → ℝ))
    (table fun i (_ : Fin 4) => (![5, 7] : Fin 2 → ℝ) i) = .ok (table fun i j => some (out i j)) ∧ ∀ i j, |out i j - (![5, 7] : Fin 2 → ℝ) i| ≤ 0 := by
  have hdt : Spod.lower "real" = "real" := by decide +kernel
  have hnz : ∀ i, ∃ j, (![![1, -2], ![0, 3]] : Fin 2 → Fin 2 → ℝ) i j ≠ 0 := by
    intro i
    exact ⟨1, by fin_cases i <;> simp⟩
  obtain ⟨v, e, -⟩ := scaler_exists "real" "localmax" hdt (![![1, -2], ![0, 3]] : Fin 2 → Fin 2 → ℝ) (by omega) hnz
  obtain ⟨out, h1, -, h2⟩ := emulate_error "real" "localmax" hdt _ (fun i (_ : Fin 4) => (![5, 7] : Fin 2 → ℝ) i) (by omega) hnz 1 1 3 (by omega) rfl
    (persist none 2) (persist_isNet _ _) v e 0 le_rfl (fun i j k l hk hl hj => persist_exact _ v i j k l hk hl hj)
  exact ⟨out, h1, fun i j => (h2 i j).trans (by rw [zero_mul])⟩

/-- a concrete call, the scaled numbers computed: rows divided by 20 and 40 and multiplied again -/
example : emulate (K := ℚ) "real" "localmax" 1 1 (persist none 2) [[1, -2], [4, 0]] [[3, 5, 6], [8, 9, 7]] =
    .ok [[some 3, some 3, some 5], [some 8, some 8, some 9]] := by
  decide +kernel

/-- a concrete complex call: real and imaginary parts come back unscaled -/
example : emulateComplex (K := ℚ) "complex" "localmax" 1 1 (persist none 2) (persist none 2) [[(1, 1), (-2, 3)], [(4, 1), (0, 5)]]
    [[(3, 1), (5, 2), (6, 4)], [(8, 0), (9, 1), (7, 6)]] =
    .ok [[(some 3, some 1), (some 3, some 1), (some 5, some 2)], [(some 8, some 0), (some 8, some 0), (some 9, some 1)]] := by
  decide +kernel

open Verif.Proj in
/-- the four snapshots of `podFour` -/
example : ∃ solver lamV, PodSolver solver lamV ∧ ∃ (o : PodFit.Out) (G : Folder) (fp fe : NpyFile ℂ), PodFit.podFit podFourCfg none solver podFour [none] none = some o ∧
      PodFit.podProject (PodFit.storedOf podFourCfg o) none podFour.flatten [none] none = some G ∧
      PodFit.podReconstruct G (some (realCoeffs fun (_ : Fin 1) (_ : Fin 3) => 5)) (.str "all") [none] none = some fp ∧
      PodFit.podReconstruct G (some (realCoeffs fun (_ : Fin 1) (_ : Fin 3) => 7)) (.str "all") [none] none = some fe := by
  obtain ⟨solver, lamV, hs, hl⟩ := solver_with _ _ _ podFour_eig
  refine ⟨solver, lamV, hs, ?_⟩
  obtain ⟨o, h1, h2⟩ := pod_given_distance podFourRun solver lamV hs none [none] [none] [none] [none] none none none none (Or.inl ⟨rfl, rfl⟩) (Or.inl ⟨rfl, rfl⟩)
    (Or.inl ⟨rfl, rfl⟩) (Or.inl ⟨rfl, rfl⟩)
  have he : o.eigs = [16, 4, 0, 0] := by
    have hfit := podFourRun.fit solver (comms := [none]) (sched := none) (Or.inl ⟨rfl, rfl⟩)
    rw [h1] at hfit
    have : o.eigs = List.ofFn (solver 4 (!![5, -3, 3, -5; -3, 5, -5, 3; 3, -5, 5, -3; -5, 3, -3, 5])).1 := by
      rw [Option.some.inj hfit, ← podFour_corr]; rfl
    rw [this, hs.real, hl]
    simp [List.ofFn_succ]
  obtain ⟨G, g1, g2⟩ := h2 (by
    intro j hj
    have : j = 0 := by omega
    subst this
    rw [he]; norm_num) (fun i hi j hj _ => by omega)
  obtain ⟨fa, fb, -, -, a1, a2, -⟩ := g2 3 (by omega) (fun _ _ => 5) (fun _ _ => 7)
  exact ⟨o, G, fa, fb, h1, g1, a1, a2⟩

end Verif.Props
