import Verif.Model.Training
import Verif.Props.Emulation
import Mathlib.Tactic.Linarith
import Mathlib.Tactic.NormNum

/-!
# Training of the emulation, data files, precision (C138-C142)
-/
namespace Verif.Props
open Verif.Emu Verif.Train

section
variable {W O : Type}

/-! ### C138: the checkpoint -/

/-- weights and optimiser after `k` epochs -/
def afterEpochs (epoch : W × O → (W × O) × Option ℝ) (s : W × O) : Nat → W × O
  | 0 => s
  | k + 1 => (epoch (afterEpochs epoch s k)).1

/-- the loss of epoch `k` (counted from 0); `none` = not finite -/
def lossOf (epoch : W × O → (W × O) × Option ℝ) (s : W × O) (k : Nat) : Option ℝ := (epoch (afterEpochs epoch s k)).2

/-- epoch `e` is the first of those with the least finite loss among `n` epochs -/
def BestEpoch (loss : Nat → Option ℝ) (n e : Nat) : Prop :=
  e < n ∧ ∃ x, loss e = some x ∧ (∀ j < n, ∀ y, loss j = some y → x ≤ y) ∧ ∀ j < e, ∀ y, loss j = some y → x < y

/-- what a checkpoint file holds after `n` epochs, `old` its content before: the weights right after the best epoch, `old` if no loss is finite -/
def BestWeights (epoch : W × O → (W × O) × Option ℝ) (s : W × O) (n : Nat) (old file : Option W) : Prop :=
  (∀ e, BestEpoch (lossOf epoch s) n e → file = some (afterEpochs epoch s (e + 1)).1) ∧
    ((∀ j < n, lossOf epoch s j = none) → file = old)

theorem fitEpochs_spec (epoch : W × O → (W × O) × Option ℝ) (s : W × O) (old : Option W) :
    ∀ (n k : Nat) (best : Option ℝ) (file : Option W),
      (match best with
        | none => (∀ j < k, lossOf epoch s j = none) ∧ file = old
        | some b => ∃ e, BestEpoch (lossOf epoch s) k e ∧ lossOf epoch s e = some b ∧ file = some (afterEpochs epoch s (e + 1)).1) →
      (fitEpochs epoch n (afterEpochs epoch s k) best file).1 = afterEpochs epoch s (k + n) ∧
      (match (fitEpochs epoch n (afterEpochs epoch s k) best file).2 with
        | f => (∃ e, BestEpoch (lossOf epoch s) (k + n) e ∧ f = some (afterEpochs epoch s (e + 1)).1) ∨
          ((∀ j < k + n, lossOf epoch s j = none) ∧ f = old)) := by
  intro n
  induction n with
  | zero =>
    intro k best file h
    refine ⟨rfl, ?_⟩
    show (∃ e, BestEpoch (lossOf epoch s) (k + 0) e ∧ file = _) ∨ _
    cases best with
    | none => exact Or.inr h
    | some b =>
      obtain ⟨e, h1, -, h3⟩ := h
      exact Or.inl ⟨e, h1, h3⟩
  | succ n ih =>
    intro k best file h
    have hk : afterEpochs epoch s (k + 1) = (epoch (afterEpochs epoch s k)).1 := rfl
    have hl : lossOf epoch s k = (epoch (afterEpochs epoch s k)).2 := rfl
    have e1 : k + (n + 1) = k + 1 + n := by omega
    rw [e1]
    show ((if improves (epoch (afterEpochs epoch s k)).2 best then
        fitEpochs epoch n (epoch (afterEpochs epoch s k)).1 (epoch (afterEpochs epoch s k)).2 (some (epoch (afterEpochs epoch s k)).1.1)
        else fitEpochs epoch n (epoch (afterEpochs epoch s k)).1 best file)).1 = _ ∧
      (match (if improves (epoch (afterEpochs epoch s k)).2 best then
        fitEpochs epoch n (epoch (afterEpochs epoch s k)).1 (epoch (afterEpochs epoch s k)).2 (some (epoch (afterEpochs epoch s k)).1.1)
        else fitEpochs epoch n (epoch (afterEpochs epoch s k)).1 best file).2 with
        | f => (∃ e, BestEpoch (lossOf epoch s) (k + 1 + n) e ∧ f = some (afterEpochs epoch s (e + 1)).1) ∨
          ((∀ j < k + 1 + n, lossOf epoch s j = none) ∧ f = old))
    rw [← hk, ← hl]
    by_cases hi : improves (lossOf epoch s k) best = true
    · rw [if_pos hi]
      apply ih
      cases hx : lossOf epoch s k with
      | none => rw [hx] at hi; simp [improves] at hi
      | some x =>
        refine ⟨k, ⟨Nat.lt_succ_self k, x, hx, ?_, ?_⟩, hx, rfl⟩
        · intro j hj y hy
          rcases Nat.lt_succ_iff_lt_or_eq.1 hj with hj | rfl
          · cases hb : best with
            | none =>
              rw [hb] at h
              rw [h.1 j hj] at hy
              cases hy
            | some b =>
              rw [hb] at h hi
              obtain ⟨e, ⟨_, z, hz, h4, _⟩, h5, _⟩ := h
              rw [h5] at hz
              cases hz
              rw [hx] at hi
              simp only [improves, decide_eq_true_eq] at hi
              exact hi.le.trans (h4 j hj y hy)
          · rw [hx] at hy
            cases hy
            exact le_refl _
        · intro j hj y hy
          cases hb : best with
          | none =>
            rw [hb] at h
            rw [h.1 j hj] at hy
            cases hy
          | some b =>
            rw [hb] at h hi
            obtain ⟨e, ⟨_, z, hz, h4, _⟩, h5, _⟩ := h
            rw [h5] at hz
            cases hz
            rw [hx] at hi
            simp only [improves, decide_eq_true_eq] at hi
            exact lt_of_lt_of_le hi (h4 j hj y hy)
    · rw [if_neg hi]
      apply ih
      cases hb : best with
      | none =>
        rw [hb] at h hi
        refine ⟨fun j hj => ?_, h.2⟩
        rcases Nat.lt_succ_iff_lt_or_eq.1 hj with hj | rfl
        · exact h.1 j hj
        · cases hx : lossOf epoch s j with
          | none => rfl
          | some x => rw [hx] at hi; simp [improves] at hi
      | some b =>
        rw [hb] at h hi
        obtain ⟨e, ⟨h1, z, hz, h4, h6⟩, h5, h7⟩ := h
        refine ⟨e, ⟨Nat.lt_succ_of_lt h1, z, hz, ?_, h6⟩, h5, h7⟩
        intro j hj y hy
        rcases Nat.lt_succ_iff_lt_or_eq.1 hj with hj | rfl
        · exact h4 j hj y hy
        · rw [hy] at hi
          rw [h5] at hz
          cases hz
          simp only [improves, decide_eq_true_eq] at hi
          exact not_lt.1 hi

theorem best_unique (loss : Nat → Option ℝ) (n e e' : Nat) (h : BestEpoch loss n e) (h' : BestEpoch loss n e') : e = e' := by
  obtain ⟨h1, x, hx, h2, h3⟩ := h
  obtain ⟨h1', x', hx', h2', h3'⟩ := h'
  rcases Nat.lt_trichotomy e e' with hl | hl | hl
  · have := h3' e hl x hx
    have := h2 e' h1' x' hx'
    linarith
  · exact hl
  · have := h3 e' hl x' hx'
    have := h2' e h1 x hx
    linarith

/-- **C138.** Training for `n` epochs leaves in the file the weights right after the first epoch with the least finite loss; such an epoch exists
    exactly when some loss is finite, and otherwise the file is what it was before. -/
theorem checkpoint_best (epoch : W × O → (W × O) × Option ℝ) (s : W × O) (n : Nat) (old : Option W) :
    (fitEpochs epoch n s none old).1 = afterEpochs epoch s n ∧
      BestWeights epoch s n old (fitEpochs epoch n s none old).2 ∧
      ((∃ e, BestEpoch (lossOf epoch s) n e) ↔ ∃ j < n, (lossOf epoch s j).isSome) := by
  obtain ⟨h1, h2⟩ := fitEpochs_spec epoch s old n 0 none old ⟨by simp, rfl⟩
  rw [Nat.zero_add] at h1 h2
  refine ⟨h1, ⟨fun e he => ?_, fun hn => ?_⟩, ⟨?_, ?_⟩⟩
  · rcases h2 with ⟨e', he', hf⟩ | ⟨hn, _⟩
    · rw [best_unique _ _ _ _ he he']
      exact hf
    · obtain ⟨h3, x, hx, _⟩ := he
      rw [hn e h3] at hx
      cases hx
  · rcases h2 with ⟨e', ⟨h3, x, hx, _⟩, hf⟩ | ⟨_, hf⟩
    · rw [hn e' h3] at hx
      cases hx
    · exact hf
  · rintro ⟨e, h3, x, hx, _⟩
    exact ⟨e, h3, by rw [hx]; rfl⟩
  · rintro ⟨j, hj, hs⟩
    rcases h2 with ⟨e', he', _⟩ | ⟨hn, _⟩
    · exact ⟨e', he'⟩
    · rw [hn j hj] at hs
      cases hs

/-- **C138, violated.** If no loss is finite the file of an earlier training, or no file, is what inference will find. -/
theorem checkpoint_stale_fails (epoch : W × O → (W × O) × Option ℝ) (s : W × O) (n : Nat) (old : Option W)
    (h : ∀ j < n, lossOf epoch s j = none) : (fitEpochs epoch n s none old).2 = old :=
  (checkpoint_best epoch s n old).2.1.2 h

/-- losses 3, 1, 1, 2 (the weights count the epochs): the second epoch is kept -/
example : (fitEpochs (fun s : Nat × Unit => ((s.1 + 1, ()), [some 3, some 1, some 1, some 2].getD s.1 none)) 4 (0, ()) none none).2 = some 2 := by
  have h := (checkpoint_best (fun s : Nat × Unit => ((s.1 + 1, ()), [some 3, some 1, some 1, some 2].getD s.1 none)) (0, ()) 4 none).2.1.1 1
  refine (h ⟨by decide, 1, rfl, ?_, ?_⟩).trans rfl
  · intro j hj y hy
    have : j = 0 ∨ j = 1 ∨ j = 2 ∨ j = 3 := by omega
    rcases this with rfl | rfl | rfl | rfl <;> simp [lossOf, afterEpochs] at hy <;> rw [← hy] <;> norm_num
  · intro j hj y hy
    have : j = 0 := by omega
    subst this
    simp [lossOf, afterEpochs] at hy
    rw [← hy]
    norm_num

/-! ### C139: the network that inference uses -/

theorem names_differ (a b : Nat) : realName a ≠ imagName b ∧ (realName a = realName b → a = b) ∧ (imagName a = imagName b → a = b) := by
  have e : ∀ n : Nat, (toString n).toList = Nat.toDigits 10 n := fun n => Nat.toList_repr
  have inj : ∀ (a b : Nat), Nat.toDigits 10 a = Nat.toDigits 10 b → a = b := by
    intro a b h
    rw [← Nat.ofDigitChars_ten_toDigits (n := a), h, Nat.ofDigitChars_ten_toDigits]
  refine ⟨fun h => ?_, fun h => ?_, fun h => ?_⟩
  · have := congrArg String.toList h
    simp [realName, imagName, String.toList_append] at this
  · have := congrArg String.toList h
    simp only [realName, String.toList_append, List.append_cancel_left_eq, e] at this
    exact inj _ _ this
  · have := congrArg String.toList h
    simp only [imagName, String.toList_append, List.append_cancel_left_eq, e] at this
    exact inj _ _ this

/-- the training pairs of a series of columns with horizon one: every window of `nIn` columns with the `nOut` columns that follow, without the last -/
def pairs (nIn nOut : Nat) (cols : List (List ℝ)) : List (List (List ℝ) × List (List ℝ)) :=
  (List.range (cols.length - nIn - nOut)).map fun (t : Nat) => ((cols.drop t).take nIn, (cols.drop (t + nIn)).take nOut)

/-- the operation trains index `idx` -/
def Trains (idx : Nat) : Op W O → Prop
  | .train i _ _ => i = idx
  | _ => False

theorem extract_pairs (nIn nOut : Nat) (cols : List (List ℝ)) (h : nIn + nOut ≤ cols.length) :
    extractSequences nIn nOut 1 cols = .ok (pairs nIn nOut cols) := by
  rw [(extract_exact nIn nOut 1 (le_refl 1) cols (by omega)).1, pairs, show cols.length + 1 - (nIn + nOut + 1) = cols.length - nIn - nOut by omega]
  congr 2
  funext t
  simp only [seqPair, Rd.pslice, Nat.add_sub_cancel, Nat.add_sub_cancel_left]

theorem trainPart_ok (c : Cfg W O) (n : Net W O) (t v : List (List ℝ)) (name : String) (ht : c.nIn + c.nOut < t.length)
    (hv : c.nIn + c.nOut ≤ v.length) :
    trainPart c n t v name = .ok ⟨(fitEpochs (c.ep (pairs c.nIn c.nOut t)) c.epochs n.s none (n.files name)).1,
      fun k => if k = name then (fitEpochs (c.ep (pairs c.nIn c.nOut t)) c.epochs n.s none (n.files name)).2 else n.files k⟩ := by
  unfold trainPart
  rw [extract_pairs _ _ t (by omega), extract_pairs _ _ v hv]
  have : pairs c.nIn c.nOut t ≠ [] := by
    simp [pairs]
    omega
  simp [this]

/-- the data have an imaginary part somewhere -/
def HasImag (d : List (List (ℝ × ℝ))) : Prop := ∃ c ∈ d, ∃ z ∈ c, z.2 ≠ 0

theorem anyImag_iff (d : List (List (ℝ × ℝ))) : anyImag d = true ↔ HasImag d := by
  simp [anyImag, HasImag, List.any_eq_true]

theorem anyImag_false (d : List (List (ℝ × ℝ))) : anyImag d = false ↔ ¬ HasImag d := by
  rw [← anyImag_iff]; simp

theorem re_length (d : List (List (ℝ × ℝ))) : (re d).length = d.length ∧ (im d).length = d.length := by simp [re, im]

/-- a training that is long enough: the object afterwards -/
theorem modelTrain_ok (c : Cfg W O) (n : Net W O) (idx : Nat) (t v : List (List (ℝ × ℝ))) (ht : c.nIn + c.nOut < t.length)
    (hv : c.nIn + c.nOut ≤ v.length) :
    ∃ n', modelTrain c n idx t v = .ok n' ∧
      n'.files (realName idx) = (fitEpochs (c.ep (pairs c.nIn c.nOut (re t))) c.epochs n.s none (n.files (realName idx))).2 ∧
      (anyImag t = true → n'.files (imagName idx) =
        (fitEpochs (c.ep (pairs c.nIn c.nOut (im t))) c.epochs
          (afterEpochs (c.ep (pairs c.nIn c.nOut (re t))) n.s c.epochs) none (n.files (imagName idx))).2) ∧
      (anyImag t = false → n'.files (imagName idx) = n.files (imagName idx)) ∧
      (∀ k, k ≠ realName idx → k ≠ imagName idx → n'.files k = n.files k) ∧
      n'.s = if anyImag t then afterEpochs (c.ep (pairs c.nIn c.nOut (im t)))
          (afterEpochs (c.ep (pairs c.nIn c.nOut (re t))) n.s c.epochs) c.epochs
        else afterEpochs (c.ep (pairs c.nIn c.nOut (re t))) n.s c.epochs := by
  have hne := (names_differ idx idx).1
  have h1 := (re_length t)
  have h2 := (re_length v)
  unfold modelTrain
  rw [trainPart_ok c n (re t) (re v) _ (by omega) (by omega)]
  have hs1 := (checkpoint_best (c.ep (pairs c.nIn c.nOut (re t))) n.s c.epochs (n.files (realName idx))).1
  by_cases ha : anyImag t = true
  · simp only [ha, if_true]
    rw [trainPart_ok c _ (im t) (im v) _ (by omega) (by omega)]
    refine ⟨_, rfl, ?_, fun _ => ?_, fun h => absurd h (by simp), fun k hk1 hk2 => ?_, ?_⟩
    · simp [hne]
    · simp [hne.symm, hs1]
    · simp [hk1, hk2]
    · simp only [hs1]
      exact (checkpoint_best _ _ _ _).1
  · have ha' : anyImag t = false := by simpa using ha
    simp only [ha', Bool.false_eq_true, if_false]
    refine ⟨_, rfl, ?_, fun h => absurd h (by simp), fun _ => ?_, fun k hk1 hk2 => ?_, hs1⟩
    · simp
    · simp [hne.symm]
    · simp [hk1]

theorem keeps (c : Cfg W O) (n : Net W O) (idx : Nat) (op : Op W O) (h : ¬ Trains idx op) :
    (opStep c n op).files (realName idx) = n.files (realName idx) ∧ (opStep c n op).files (imagName idx) = n.files (imagName idx) := by
  cases op with
  | init s => exact ⟨rfl, rfl⟩
  | infer i d =>
    have : (opStep c n (.infer i d)).files = n.files := by
      show (modelInference c n i d).1.files = n.files
      unfold modelInference
      split
      · rfl
      · split
        · rfl
        · simp only
          split
          · split <;> rfl
          · rfl
    rw [this]
    exact ⟨rfl, rfl⟩
  | train i t v =>
    have hi : i ≠ idx := h
    have hr : realName idx ≠ realName i := fun e => hi ((names_differ idx i).2.1 e).symm
    have hm : imagName idx ≠ imagName i := fun e => hi ((names_differ idx i).2.2 e).symm
    have hrm : realName idx ≠ imagName i := (names_differ idx i).1
    have hmr : imagName idx ≠ realName i := (names_differ i idx).1.symm
    have part : ∀ (n n' : Net W O) a b name, trainPart c n a b name = .ok n' → ∀ k, k ≠ name → n'.files k = n.files k := by
      intro n n' a b name hp k hk
      unfold trainPart at hp
      split at hp
      · split at hp
        · cases hp
        · cases hp
          simp [hk]
      · cases hp
      · cases hp
    show (match modelTrain c n i t v with | .ok n' => n' | .error _ => n).files _ = _ ∧ _
    cases hmt : modelTrain c n i t v with
    | error e => exact ⟨rfl, by simp [opStep, hmt]⟩
    | ok n' =>
      have key : ∀ k, k ≠ realName i → k ≠ imagName i → n'.files k = n.files k := by
        intro k h1 h2
        unfold modelTrain at hmt
        split at hmt
        · cases hmt
        · rename_i n1 hp
          split at hmt
          · rw [part _ _ _ _ _ hmt k h2, part _ _ _ _ _ hp k h1]
          · cases hmt
            exact part _ _ _ _ _ hp k h1
      refine ⟨key _ hr hrm, ?_⟩
      simp only [opStep, hmt]
      exact key _ hmr hm

/-- **C139, exactly.** After any history, the weights that inference loads for `idx` are the best of the last training of `idx`, started from the weights the
    object had then: for the real part on the pairs of the real parts, for the imaginary part on those of the imaginary parts if the data had any,
    otherwise whatever the file held before. -/
theorem trained_files (c : Cfg W O) (n : Net W O) (pre post : List (Op W O)) (idx : Nat) (t v : List (List (ℝ × ℝ)))
    (ht : c.nIn + c.nOut < t.length) (hv : c.nIn + c.nOut ≤ v.length) (hp : ∀ op ∈ post, ¬ Trains idx op) :
    let m := ops c n pre
    let f := (ops c n (pre ++ .train idx t v :: post)).files
    BestWeights (c.ep (pairs c.nIn c.nOut (re t))) m.s c.epochs (m.files (realName idx)) (f (realName idx)) ∧
      (HasImag t → BestWeights (c.ep (pairs c.nIn c.nOut (im t))) (afterEpochs (c.ep (pairs c.nIn c.nOut (re t))) m.s c.epochs)
        c.epochs (m.files (imagName idx)) (f (imagName idx))) ∧
      (¬ HasImag t → f (imagName idx) = m.files (imagName idx)) := by
  obtain ⟨n', h1, h2, h3, h4, -, -⟩ := modelTrain_ok c (ops c n pre) idx t v ht hv
  have hstep : opStep c (ops c n pre) (.train idx t v) = n' := by simp only [opStep, h1]
  have hpost : ∀ (q : Net W O), (ops c q post).files (realName idx) = q.files (realName idx) ∧
      (ops c q post).files (imagName idx) = q.files (imagName idx) := by
    clear h1 h2 h3 h4 hstep
    induction post with
    | nil => intro q; exact ⟨rfl, rfl⟩
    | cons op post ih =>
      intro q
      have hk := keeps c q idx op (hp op (by simp))
      have := ih (fun o ho => hp o (by simp [ho])) (opStep c q op)
      exact ⟨this.1.trans hk.1, this.2.trans hk.2⟩
  have hops : ops c n (pre ++ .train idx t v :: post) = ops c n' post := by
    simp only [ops, List.foldl_append, List.foldl_cons]
    rw [← hstep]
    rfl
  simp only [hops, hpost n']
  refine ⟨?_, fun ha => ?_, fun ha => h4 ((anyImag_false t).2 ha)⟩
  · rw [h2]
    exact (checkpoint_best _ _ _ _).2.1
  · rw [h3 ((anyImag_iff t).2 ha)]
    exact (checkpoint_best _ _ _ _).2.1

/-- **C139, exactly.** Inference loads its networks exactly when the file of the real part exists and, for input with imaginary parts, also that of the
    imaginary part. -/
theorem inference_loads_exact (c : Cfg W O) (n : Net W O) (idx : Nat) (data : List (List (ℝ × ℝ))) (hl : c.nIn ≤ data.length) :
    (modelInference c n idx data).2 = .error "FileNotFoundError" ↔
      n.files (realName idx) = none ∨ (HasImag data ∧ n.files (imagName idx) = none) := by
  have hinf : ∀ (z : List (ℝ × ℝ)) a b p (d : List (List (ℝ × ℝ))), inference z a b p d ≠ .error "FileNotFoundError" := by
    intro z a b p d
    unfold inference
    split
    · simp
    · split
      · simp
      · simp only
        split <;> simp
  rw [← anyImag_iff]
  unfold modelInference
  rw [if_neg (by omega)]
  cases hr : n.files (realName idx) with
  | none => simp
  | some wr =>
    simp only [reduceCtorEq, false_or]
    cases ha : anyImag data with
    | false => simp [hinf]
    | true =>
      simp only [if_true, true_and]
      cases hi : n.files (imagName idx) with
      | none => simp
      | some wi => simp [hinf]

/-- **C139, violated.** Trained on real data only, the object cannot be used on data with an imaginary part. -/
theorem imag_missing_fails (c : Cfg W O) (n : Net W O) (idx : Nat) (t v data : List (List (ℝ × ℝ))) (hi : n.files (imagName idx) = none)
    (ht : c.nIn + c.nOut < t.length) (hv : c.nIn + c.nOut ≤ v.length) (hreal : ¬ HasImag t) (hdata : HasImag data)
    (hl : c.nIn ≤ data.length) :
    (modelInference c (ops c n [.train idx t v]) idx data).2 = .error "FileNotFoundError" := by
  rw [inference_loads_exact c _ idx data hl]
  right
  refine ⟨hdata, ?_⟩
  have := (trained_files c n [] [] idx t v ht hv (by simp)).2.2 hreal
  exact this.trans hi

/-- **C139, violated.** Trained on complex data and then, for the same index, on real data: the network for imaginary parts is still the old one. -/
theorem imag_stale_fails (c : Cfg W O) (n : Net W O) (idx : Nat) (t v t' v' : List (List (ℝ × ℝ)))
    (ht : c.nIn + c.nOut < t'.length) (hv : c.nIn + c.nOut ≤ v'.length) (hreal : ¬ HasImag t') :
    (ops c n [.train idx t v, .train idx t' v']).files (imagName idx) = (ops c n [.train idx t v]).files (imagName idx) :=
  (trained_files c n [.train idx t v] [] idx t' v' ht hv (by simp)).2.2 hreal

/-- what inference returns: every predicted column from the best networks of the index -/
theorem inference_uses (c : Cfg W O) (n : Net W O) (idx : Nat) (data : List (List (ℝ × ℝ))) (hl : c.nIn ≤ data.length) (wr wi : W)
    (hr : n.files (realName idx) = some wr) (hi : n.files (imagName idx) = some wi) (hdata : HasImag data) :
    (modelInference c n idx data).2 = inference [] c.nIn c.nOut
      (fun win => List.zipWith (fun x y => List.zip x y) (c.net wr (re win)) (c.net wi (im win))) data := by
  unfold modelInference
  rw [if_neg (by omega)]
  simp [hr, hi, (anyImag_iff data).2 hdata]

/-- what inference returns for real data: the predictions of the network for real parts, and no imaginary parts -/
theorem inference_uses_real (c : Cfg W O) (n : Net W O) (idx : Nat) (data : List (List (ℝ × ℝ))) (hl : c.nIn ≤ data.length) (wr : W)
    (hr : n.files (realName idx) = some wr) (hdata : ¬ HasImag data) :
    (modelInference c n idx data).2 = inference [] c.nIn c.nOut
      (fun win => (c.net wr (win.map fun col => col.map Prod.fst)).map fun col => col.map fun x => (x, 0)) data := by
  unfold modelInference
  rw [if_neg (by omega)]
  have : anyImag data = false := by
    cases h : anyImag data with
    | false => rfl
    | true => exact absurd ((anyImag_iff data).1 h) hdata
  simp [hr, this, re]

/-! ### C140: training depends on what was trained and predicted before -/

/-- **C140, exactly.** Training index `idx` starts from the weights the object has at that time; after `model_inference` these are the ones it loaded. -/
theorem state_after_inference (c : Cfg W O) (n : Net W O) (idx : Nat) (data : List (List (ℝ × ℝ))) (hl : c.nIn ≤ data.length) (wr : W)
    (hr : n.files (realName idx) = some wr) :
    (modelInference c n idx data).1.s =
      (if anyImag data then (n.files (imagName idx)).getD wr else wr, n.s.2) := by
  unfold modelInference
  rw [if_neg (by omega)]
  simp only [hr]
  cases anyImag data with
  | false => simp
  | true =>
    simp only [if_true]
    cases n.files (imagName idx) <;> simp

/-- **C140, partly.** A training right after `model_initialize` with some finite loss gives the same network of the real part after every history. -/
theorem train_after_init_partial (c : Cfg W O) (n n' : Net W O) (pre pre' : List (Op W O)) (s0 : W × O) (idx : Nat) (t v : List (List (ℝ × ℝ)))
    (ht : c.nIn + c.nOut < t.length) (hv : c.nIn + c.nOut ≤ v.length)
    (hfin : ∃ j < c.epochs, (lossOf (c.ep (pairs c.nIn c.nOut (re t))) s0 j).isSome) :
    (ops c n (pre ++ [.init s0, .train idx t v])).files (realName idx) =
      (ops c n' (pre' ++ [.init s0, .train idx t v])).files (realName idx) := by
  obtain ⟨e, he⟩ := (checkpoint_best (c.ep (pairs c.nIn c.nOut (re t))) s0 c.epochs none).2.2.2 hfin
  have key : ∀ (m : Net W O) (l : List (Op W O)), (ops c m (l ++ [.init s0, .train idx t v])).files (realName idx) =
      some (afterEpochs (c.ep (pairs c.nIn c.nOut (re t))) s0 (e + 1)).1 := by
    intro m l
    have h := (trained_files c m (l ++ [.init s0]) [] idx t v ht hv (by simp)).1
    have hs : (ops c m (l ++ [.init s0])).s = s0 := by
      simp [ops, List.foldl_append, opStep]
    rw [hs] at h
    rw [show l ++ [Op.init s0, Op.train idx t v] = l ++ [.init s0] ++ [.train idx t v] by simp]
    exact h.1 e he
  rw [key, key]

/-- a network whose weights count the epochs and whose loss is always the same -/
def counting (epochs : Nat) : Cfg Nat Unit := ⟨epochs, 1, 1, fun _ s => ((s.1 + 1, ()), some 0), fun _ w => w⟩

theorem counting_train (epochs : Nat) (he : 0 < epochs) (n : Net Nat Unit) (pre : List (Op Nat Unit)) (idx : Nat) (t v : List (List (ℝ × ℝ)))
    (ht : 2 < t.length) (hv : 2 ≤ v.length) :
    (ops (counting epochs) n (pre ++ [.train idx t v])).files (realName idx) = some ((ops (counting epochs) n pre).s.1 + 1) := by
  have h := (trained_files (counting epochs) n pre [] idx t v ht hv (by simp)).1.1 0 ⟨he, 0, rfl, ?_, ?_⟩
  · exact h
  · intro j _ y hy
    cases hy
    exact le_refl _
  · intro j hj
    omega

/-- **C140, violated.** The network trained for an index depends on which indices were trained before, and on whether a prediction was made in between. -/
theorem training_order_fails (epochs : Nat) (he : 1 < epochs) (a b v data : List (List (ℝ × ℝ))) (ha : 2 < a.length) (hb : 2 < b.length)
    (hv : 2 ≤ v.length) (hd : 1 ≤ data.length) (hreal : anyImag a = false) (hrd : anyImag data = false) (n : Net Nat Unit) :
    let net l := (ops (counting epochs) n l).files (realName 1)
    net [.init (0, ()), .train 1 b v] = some 1 ∧
    net [.init (0, ()), .train 0 a v, .train 1 b v] = some (epochs + 1) ∧
    net [.init (0, ()), .train 0 a v, .infer 0 data, .train 1 b v] = some 2 := by
  have hae : ∀ s k, afterEpochs ((counting epochs).ep (pairs 1 1 (re a))) s k = (s.1 + k, ()) := by
    intro s k
    induction k with
    | zero => rfl
    | succ k ih =>
      show ((afterEpochs ((counting epochs).ep (pairs 1 1 (re a))) s k).1 + 1, ()) = _
      rw [ih]
      rfl
  obtain ⟨n', h1, h2, -, -, -, h6⟩ := modelTrain_ok (counting epochs) { n with s := (0, ()) } 0 a v ha hv
  have hst : (ops (counting epochs) n [.init (0, ()), .train 0 a v]) = n' := by
    simp only [ops, List.foldl_cons, List.foldl_nil, opStep, h1]
  refine ⟨?_, ?_, ?_⟩
  · have := counting_train epochs (by omega) n [.init (0, ())] 1 b v hb hv
    exact this
  · have := counting_train epochs (by omega) n [.init (0, ()), .train 0 a v] 1 b v hb hv
    rw [hst, h6, hreal] at this
    simp only [Bool.false_eq_true, if_false] at this
    refine this.trans ?_
    have := hae (0, ()) epochs
    change some ((afterEpochs ((counting epochs).ep (pairs 1 1 (re a))) (0, ()) epochs).1 + 1) = _
    rw [this]
    simp
  · have := counting_train epochs (by omega) n [.init (0, ()), .train 0 a v, .infer 0 data] 1 b v hb hv
    have hf := counting_train epochs (by omega) n [.init (0, ())] 0 a v ha hv
    have hs := state_after_inference (counting epochs) n' 0 data hd 1 (by
      rw [← hst]
      exact hf)
    rw [hrd] at hs
    have hst2 : ops (counting epochs) n [.init (0, ()), .train 0 a v, .infer 0 data] = (modelInference (counting epochs) n' 0 data).1 := by
      rw [← hst]
      rfl
    rw [hst2, hs] at this
    exact this

example : (ops (counting 20) ⟨(0, ()), fun _ => none⟩ [.init (0, ()), .train 0 [[(1, 0)], [(2, 0)], [(3, 0)]] [[(1, 0)], [(2, 0)]],
    .train 1 [[(4, 0)], [(5, 0)], [(6, 0)]] [[(1, 0)], [(2, 0)]]]).files (realName 1) = some 21 :=
  (training_order_fails 20 (by decide) [[(1, 0)], [(2, 0)], [(3, 0)]] [[(4, 0)], [(5, 0)], [(6, 0)]] [[(1, 0)], [(2, 0)]] [[(7, 0)]] (by simp) (by simp)
    (by simp) (by simp) (by simp [anyImag]) (by simp [anyImag]) ⟨(0, ()), fun _ => none⟩).2.1

end

/-! ### C141: formats -/

/-- `file` is named `stem.e`: `e` has no dot or slash, and the last component of the stem is not empty or made of dots only -/
def Named (file e : List Char) : Prop :=
  ∃ dir stem, file = dir ++ stem ++ '.' :: e ∧ (dir = [] ∨ ∃ d, dir = d ++ ['/']) ∧ '/' ∉ stem ∧ (∃ c ∈ stem, c ≠ '.') ∧ '.' ∉ e ∧ '/' ∉ e

theorem takeWhile_append_stop {α} (p : α → Bool) (l r : List α) (hl : ∀ x ∈ l, p x = true) (hr : ∀ x, r.head? = some x → p x = false) :
    (l ++ r).takeWhile p = l := by
  rw [List.takeWhile_append_of_pos hl]
  cases r with
  | nil => simp
  | cons x r => simp [hr x rfl]

theorem pyExt_named (file e : List Char) (h : Named file e) : pyExt file = '.' :: e := by
  obtain ⟨dir, stem, rfl, hdir, hstem, ⟨c, hc, hcd⟩, he1, he2⟩ := h
  have hb : afterSlash (dir ++ stem ++ '.' :: e) = stem ++ '.' :: e := by
    unfold afterSlash
    have : (dir ++ stem ++ '.' :: e).reverse = (stem ++ '.' :: e).reverse ++ dir.reverse := by simp
    rw [this, takeWhile_append_stop]
    · simp
    · intro x hx
      simp only [List.mem_reverse, List.mem_append, List.mem_cons] at hx
      rcases hx with hx | rfl | hx
      · simpa using fun (h : x = '/') => hstem (h ▸ hx)
      · decide
      · simpa using fun (h : x = '/') => he2 (h ▸ hx)
    · intro x hx
      rcases hdir with rfl | ⟨d, rfl⟩
      · simp at hx
      · simp at hx
        subst hx
        decide
  have he : ((stem ++ '.' :: e).reverse.takeWhile (· ≠ '.')).reverse = e := by
    have : (stem ++ '.' :: e).reverse = e.reverse ++ '.' :: stem.reverse := by simp
    rw [this, takeWhile_append_stop]
    · simp
    · intro x hx
      simp only [List.mem_reverse] at hx
      simpa using fun (h : x = '.') => he1 (h ▸ hx)
    · intro x hx
      simp at hx
      subst hx
      decide
  unfold pyExt
  simp only [hb, he]
  have hp : (stem ++ '.' :: e).take ((stem ++ '.' :: e).length - e.length - 1) = stem := by
    have : (stem ++ '.' :: e).length - e.length - 1 = stem.length := by simp; omega
    rw [this]
    simp
  rw [hp, if_pos]
  refine ⟨by simp, ?_⟩
  rw [List.any_eq_true]
  exact ⟨c, hc, by simpa using hcd⟩

/-- **C141, exactly.** A file named `stem.e` without a `format`: what happens depends on the lower-case extension. -/
theorem read_data_exact (file e : List Char) (h : Named file e) :
    (readData file [] = .dataset ↔ e.map Char.toLower = "nc".toList) ∧
    (readData file [] = .arrays ↔ e.map Char.toLower = "mat".toList) ∧
    (readData file [] = .nameError ↔ e.map Char.toLower = "npy".toList) := by
  have h1 : ∀ s : List Char, (('.' :: e).map Char.toLower = '.' :: s) ↔ e.map Char.toLower = s := by
    intro s
    simp [show Char.toLower '.' = '.' from by decide]
  have h2 : ∀ (x : Char) (s : List Char), x ≠ '.' → ('.' :: e).map Char.toLower ≠ x :: s := by
    intro x s hx h
    simp [show Char.toLower '.' = '.' from by decide] at h
    exact hx h.1.symm
  have n1 : ('.' :: e).map Char.toLower ≠ "npy".toList := h2 'n' _ (by decide)
  have n2 : ('.' :: e).map Char.toLower ≠ "nc".toList := h2 'n' _ (by decide)
  have n3 : ('.' :: e).map Char.toLower ≠ "mat".toList := h2 'm' _ (by decide)
  have p1 := h1 "npy".toList
  have p2 := h1 "nc".toList
  have p3 := h1 "mat".toList
  have d12 : "npy".toList ≠ "nc".toList := by decide
  have d13 : "npy".toList ≠ "mat".toList := by decide
  have d23 : "nc".toList ≠ "mat".toList := by decide
  unfold readData
  simp only [if_true, pyExt_named file e h]
  simp only [show ".npy".toList = '.' :: "npy".toList from rfl, show ".nc".toList = '.' :: "nc".toList from rfl,
    show ".mat".toList = '.' :: "mat".toList from rfl, p1, p2, p3, n1, n2, n3, or_false]
  generalize "npy".toList = a at *
  generalize "nc".toList = b at *
  generalize "mat".toList = c at *
  generalize e.map Char.toLower = f
  by_cases q1 : f = a
  · subst q1; simp [d12, d13]
  · by_cases q2 : f = b
    · subst q2; simp [q1, d23]
    · by_cases q3 : f = c
      · subst q3; simp [q1, q2]
      · simp [q1, q2, q3]

/-- **C141.** Any other extension raises `ValueError`. -/
theorem read_other_raises (file e : List Char) (h : Named file e) (h1 : e.map Char.toLower ≠ "nc".toList)
    (h2 : e.map Char.toLower ≠ "mat".toList) (h3 : e.map Char.toLower ≠ "npy".toList) : readData file [] = .valueError := by
  obtain ⟨a, b, c⟩ := read_data_exact file e h
  cases hr : readData file [] with
  | valueError => rfl
  | dataset => exact absurd (a.1 hr) h1
  | arrays => exact absurd (b.1 hr) h2
  | nameError => exact absurd (c.1 hr) h3

/-- **C141.** A given `format`, with or without the dot, means what the extension of a file of that format means, whatever the file is called. -/
theorem read_format (file other e : List Char) (h : Named other e) (he : e ≠ []) (hd : e.head? ≠ some '.') :
    readData file e = readData other [] ∧ readData file ('.' :: e) = readData other [] := by
  have hlow : ∀ c : Char, c.toLower = '.' → c = '.' := by
    intro c hc
    rw [Char.toLower] at hc
    split at hc
    · rename_i hr
      have := congrArg Char.toNat hc
      exfalso
      have hv := congrArg Char.val hc
      simp only at hv
      have h1 := hr.1
      have h2 := hr.2
      revert hv h1 h2
      generalize c.val = v
      simp only [UInt32.le_iff_toNat_le, ← UInt32.toNat_inj]
      intro hv h1 h2
      have : (v + ('a'.val - 'A'.val)).toNat = v.toNat + 32 := by
        rw [UInt32.toNat_add, show ('a'.val - 'A'.val).toNat = 32 from by decide]
        have : 'Z'.val.toNat = 90 := by decide
        omega
      have e1 : 'A'.val.toNat = 65 := by decide
      have e2 : '.'.val.toNat = 46 := by decide
      omega
    · exact hc
  have nodot : ∀ s : List Char, e.map Char.toLower ≠ '.' :: s := by
    intro s hs
    cases e with
    | nil => exact he rfl
    | cons c r =>
      rw [List.map_cons] at hs
      have := hlow c (List.cons.inj hs).1
      exact hd (by rw [this]; rfl)
  have key : ∀ fmt, fmt = e ∨ fmt = '.' :: e → (readData file fmt = .dataset ↔ e.map Char.toLower = "nc".toList) ∧
      (readData file fmt = .arrays ↔ e.map Char.toLower = "mat".toList) ∧
      (readData file fmt = .nameError ↔ e.map Char.toLower = "npy".toList) := by
    intro fmt hf
    have d12 : "npy".toList ≠ "nc".toList := by decide
    have d13 : "npy".toList ≠ "mat".toList := by decide
    have d23 : "nc".toList ≠ "mat".toList := by decide
    have hne : fmt ≠ [] := by rcases hf with rfl | rfl <;> simp [he]
    have hmap : ∀ s : List Char, s.head? ≠ some '.' → ((fmt.map Char.toLower = '.' :: s ∨ fmt.map Char.toLower = s) ↔ e.map Char.toLower = s) := by
      intro s hs
      rcases hf with rfl | rfl
      · exact ⟨fun hh => hh.resolve_left (nodot s), Or.inr⟩
      · rw [List.map_cons, show Char.toLower '.' = '.' from by decide]
        constructor
        · rintro (hh | hh)
          · exact (List.cons.inj hh).2
          · exact absurd (by rw [← hh]; rfl) hs
        · intro hh; exact Or.inl (by rw [hh])
    unfold readData
    simp only [hne, if_false, show ".npy".toList = '.' :: "npy".toList from rfl, show ".nc".toList = '.' :: "nc".toList from rfl,
      show ".mat".toList = '.' :: "mat".toList from rfl, hmap "npy".toList (by decide), hmap "nc".toList (by decide),
      hmap "mat".toList (by decide)]
    generalize "npy".toList = a at *
    generalize "nc".toList = b at *
    generalize "mat".toList = c at *
    generalize e.map Char.toLower = f
    by_cases q1 : f = a
    · subst q1; simp [d12, d13]
    · by_cases q2 : f = b
      · subst q2; simp [q1, d23]
      · by_cases q3 : f = c
        · subst q3; simp [q1, q2]
        · simp [q1, q2, q3]
  obtain ⟨a, b, c⟩ := read_data_exact other e h
  have same : ∀ fmt, fmt = e ∨ fmt = '.' :: e → readData file fmt = readData other [] := by
    intro fmt hf
    obtain ⟨a', b', c'⟩ := key fmt hf
    rw [← a] at a'
    rw [← b] at b'
    rw [← c] at c'
    revert a' b' c'
    cases readData file fmt <;> cases readData other [] <;> simp
  exact ⟨same e (Or.inl rfl), same _ (Or.inr rfl)⟩

example : readData "field.dat".toList "NC".toList = .dataset := by decide

/-- **C141, violated.** No `.npy` file can be read, whatever its name and content. -/
theorem read_npy_fails (file e : List Char) (h : Named file e) (he : e.map Char.toLower = "npy".toList) : readData file [] = .nameError :=
  (read_data_exact file e h).2.2.2 he

example : readData "data/x.0.NPY".toList [] = .nameError :=
  read_npy_fails _ "NPY".toList ⟨"data/".toList, "x.0".toList, by decide, Or.inr ⟨"data".toList, by decide⟩, by decide,
    ⟨'x', by decide, by decide⟩, by decide, by decide⟩ (by decide)

example : readData "data/x.Mat".toList [] = .arrays := by decide

/-! ### C142: precision -/

/-- **C142, exactly.** The fit and the functions of both `utils` modules use the same precision exactly for `'double'`, `'single'` and `np.float32`. -/
theorem dtype_same_exact (d : DtypeArg) :
    (spodUtilsBytes d = some (fitBytes d) ∧ podUtilsBytes d = fitBytes d) ↔ d = .str "double" ∨ d = .str "single" ∨ d = .float32 := by
  cases d with
  | float64 => decide
  | float32 => decide
  | str s =>
    by_cases h1 : s = "double"
    · subst h1; decide
    · by_cases h2 : s = "single"
      · subst h2; decide
      · simp [spodUtilsBytes, h1, h2]

/-- **C142, violated.** A fit with `dtype: np.float64`, or any string other than `'double'`, is made in single precision. -/
theorem dtype_single_fails (d : DtypeArg) (h : d ≠ .str "double") : fitBytes d = 4 ∧ fitBytes .float64 = 4 ∧ spodUtilsBytes .float64 = some 8 :=
  ⟨by simp [fitBytes, h], by decide, by decide⟩

end Verif.Props
