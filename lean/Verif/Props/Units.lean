import Verif.Props.Influence
import Verif.Props.Training
/-
  C171: the unit of time; C172: every accepted network can be trained; C173: predictions use earlier columns only.
-/
namespace Verif.Props
open Verif Verif.Par Verif.Rd Verif.Fit Verif.Proj Verif.Spod

/-! ### C171: the unit of time -/

section
variable {K : Type} [Field K] [LinearOrder K] [IsStrictOrderedRing K]

omit [LinearOrder K] [IsStrictOrderedRing K] in
/-- the frequency axis for a time step `a` times as long -/
theorem freqAxis_units (n : Nat) (dt a : K) (isreal full : Bool) : freqAxis n (a * dt) isreal full = (freqAxis n dt isreal full).map (· / a) := by
  have h1 : ((List.range n).map fun (k : Nat) => ((k : K) / (a * dt)) / n) = ((List.range n).map fun (k : Nat) => ((k : K) / dt) / n).map (· / a) := by
    rw [List.map_map]
    refine List.map_congr_left fun k _ => ?_
    simp only [Function.comp_apply, div_div]
    congr 1; ring
  have h2 : ∀ l : List K, (l.map (· / a)).map (· - 1 / (a * dt)) = (l.map (· - 1 / dt)).map (· / a) := by
    intro l
    rw [List.map_map, List.map_map]
    refine List.map_congr_left fun x _ => ?_
    simp only [Function.comp_apply, sub_div, div_div]
    congr 2; ring
  unfold freqAxis
  simp only [h1]
  split
  · rfl
  · split
    · rw [List.map_map]
      refine List.map_congr_left fun k _ => ?_
      simp only [Function.comp_apply, div_div]
      congr 1; ring
    · split <;> rw [List.map_append, List.map_take, ← h2, ← List.map_drop, ← List.map_drop]

theorem argminGo_scaled (s : K) (hs : 0 < s) (l : List K) (i j : Nat) (b : K) :
    Coef.argminGo i (b * s) j (l.map (· * s)) = Coef.argminGo i b j l := by
  induction l generalizing i j b with
  | nil => rfl
  | cons x l ih =>
    simp only [List.map_cons, Coef.argminGo, mul_lt_mul_iff_left₀ hs]
    split <;> exact ih _ _ _

theorem argmin_scaled (s : K) (hs : 0 < s) (l : List K) : Coef.argmin (l.map (· * s)) = Coef.argmin l := by
  cases l with
  | nil => rfl
  | cons x l =>
    simp only [List.map_cons, Coef.argmin]
    rw [argminGo_scaled s hs]

theorem nearest_units (freq : List K) (req a : K) (ha : 0 < a) :
    Coef.findNearestFreq (req / a) (freq.map (· / a)) = (Coef.findNearestFreq req freq).map fun p => (p.1 / a, p.2) := by
  have e : ((freq.map (· / a)).map fun f => |f - req / a|) = (freq.map fun f => |f - req|).map (· * a⁻¹) := by
    rw [List.map_map, List.map_map]
    refine List.map_congr_left fun x _ => ?_
    simp only [Function.comp_apply]
    rw [← sub_div, abs_div, abs_of_pos ha, div_eq_mul_inv]
  unfold Coef.findNearestFreq
  rw [e, argmin_scaled _ (inv_pos.2 ha)]
  cases Coef.argmin (freq.map fun f => |f - req|) with
  | none => rfl
  | some i =>
    simp only [List.getElem?_map, Option.map_map]
    rfl

theorem band_units (freq : List K) (tLb tUb : Option K) (idx : Option (List Nat)) (a : K) (ha : 0 < a) :
    Coef.selectBand (freq.map (· / a)) (tLb.map (a * ·)) (tUb.map (a * ·)) idx = Coef.selectBand freq tLb tUb idx := by
  have hz : ∀ x : K, a * x = 0 ↔ x = 0 := fun x => by simp [ha.ne']
  have hd : ∀ x : K, 1 / (a * x) = 1 / x / a := fun x => by rw [div_div, mul_comm]
  unfold Coef.selectBand
  simp only [List.length_map, Option.map_eq_none_iff]
  split
  · rfl
  · cases tUb with
    | none => cases tLb <;> rfl
    | some u =>
      cases tLb with
      | none => rfl
      | some l =>
        simp only [Option.map_some, hz, hd, nearest_units _ _ _ ha]
        split
        · rfl
        · cases Coef.findNearestFreq (1 / u) freq with
          | none => rfl
          | some p => cases Coef.findNearestFreq (1 / l) freq <;> rfl

end

/-- **C171.** The same results folder with times measured in a unit `1/a` as long (the time step and the bounds of the periods are multiplied
    by `a > 0`): every stored frequency is divided by `a`, and a projection, on any ranks, leaves the same files (or fails in the same way). -/
theorem unit_of_time {nb : Nat} (c : Cfg) (xdim nv : Nat) (dt a : ℝ) (ha : 0 < a) (out : Out nb) (o : Opts) (svd : Svd) (frames : List (Arr ℝ))
    (comms : List Comm) (sched : Sched) :
    (storedOf c xdim nv (a * dt) out).freq = (storedOf c xdim nv dt out).freq.map (· / a) ∧
    project (storedOf c xdim nv (a * dt) out) { o with tLb := o.tLb.map (a * ·), tUb := o.tUb.map (a * ·) } svd frames comms sched =
      project (storedOf c xdim nv dt out) o svd frames comms sched := by
  refine ⟨freqAxis_units _ _ _ _ _, ?_⟩
  have hb : Coef.selectBand (storedOf c xdim nv (a * dt) out).freq (o.tLb.map (a * ·)) (o.tUb.map (a * ·)) o.freqIdx =
      Coef.selectBand (storedOf c xdim nv dt out).freq o.tLb o.tUb o.freqIdx := by
    have : (storedOf c xdim nv (a * dt) out).freq = (storedOf c xdim nv dt out).freq.map (· / a) := freqAxis_units _ _ _ _ _
    rw [this, band_units _ _ _ _ _ ha]
  unfold project
  simp only [hb]
  rfl

/-- one second or sixty minutes: periods of two to four steps -/
example : Coef.selectBand (freqAxis 8 (60 * (1 : ℚ)) true false) (some 120) (some 240) none = .ok ⟨2, 4, 3, [2, 3, 4]⟩ ∧
    Coef.selectBand (freqAxis 8 (1 : ℚ) true false) (some 2) (some 4) none = .ok ⟨2, 4, 3, [2, 3, 4]⟩ := by decide +kernel

/-! ### C172: every accepted network can be trained -/

section
open Verif.Train Verif.Emu
variable {W O : Type}

/-- **C172, negation.** `'cnn'`, in any case of letters, is accepted, and no training with it succeeds. -/
theorem accepted_network_fails (name : String) (h : name.toList.map Char.toLower = "cnn".toList) :
    (∃ k, netKind name = some k) ∧ ∀ (c : Cfg W O) (n : Net W O) (idx : Nat) (t v : List (List (ℝ × ℝ))),
      ∃ e, initTrain name c n idx t v = .error e := by
  have hk : netKind name = some .cnn := by unfold netKind; rw [h]; decide
  refine ⟨⟨_, hk⟩, fun c n idx t v => ?_⟩
  unfold initTrain
  rw [hk]
  cases h : modelTrain c n idx t v with
  | error e => exact ⟨e, rfl⟩
  | ok n' => exact ⟨_, rfl⟩

/-- **C172, the rest.** The names accepted are `lstm` and `cnn` in any case of letters; any other name raises a ValueError; training with `lstm` is
    the training of C137–C140. -/
theorem accepted_network_partial (name : String) (c : Cfg W O) (n : Net W O) (idx : Nat) (t v : List (List (ℝ × ℝ))) :
    (name.toList.map Char.toLower = "lstm".toList → initTrain name c n idx t v = modelTrain c n idx t v) ∧
    (netKind name = none ↔ name.toList.map Char.toLower ≠ "lstm".toList ∧ name.toList.map Char.toLower ≠ "cnn".toList) ∧
    (netKind name = none → initTrain name c n idx t v = .error "ValueError") := by
  refine ⟨fun h => ?_, ?_, fun h => ?_⟩
  · unfold initTrain netKind
    rw [if_pos h]
    cases modelTrain c n idx t v <;> rfl
  · unfold netKind
    split
    · simp [*]
    · split
      · simp [*]
      · rename_i h1 h2
        exact ⟨fun _ => ⟨h1, h2⟩, fun _ => rfl⟩
  · unfold initTrain
    rw [h]

example : netKind "LSTM" = some .lstm ∧ netKind "Cnn" = some .cnn ∧ netKind "gru" = none := by decide

/-! ### C173: a prediction depends on earlier columns only -/

/-- **C173, negation.** A column with an imaginary part changes the prediction of the columns before it: with the weights of the imaginary part the
    network answers one for zeros. -/
theorem prediction_earlier_fails : ∃ (c : Cfg Bool Unit) (n : Net Bool Unit) (d d' : List (List (ℝ × ℝ))) (o o' : List (List (ℝ × ℝ))),
    d.length = d'.length ∧ d.take 2 = d'.take 2 ∧ (modelInference c n 0 d).2 = .ok o ∧ (modelInference c n 0 d').2 = .ok o' ∧ o[1]? ≠ o'[1]? := by
  let c : Cfg Bool Unit := ⟨1, 1, 1, fun _ s => (s, none), fun w win => if w then win else win.map fun col => col.map fun _ => (1 : ℝ)⟩
  let n : Net Bool Unit := ⟨(true, ()), fun k => if k = "real0" then some true else some false⟩
  have h1 : realName 0 = "real0" := by decide
  have h2 : imagName 0 = "imag0" := by decide
  have h3 : ¬ ("imag0" = "real0") := by decide
  refine ⟨c, n, [[(0, 0)], [(0, 0)], [(0, 0)]], [[(0, 0)], [(0, 0)], [(0, 1)]], [[(0, 0)], [(0, 0)], [(0, 0)]], [[(0, 0)], [(0, 1)], [(0, 1)]],
    rfl, rfl, ?_, ?_, by simp⟩
  · simp [modelInference, c, n, anyImag, h1, inference, fillTurns, turns, predTurn, re, Rd.pslice, assignCols]
  · simp [modelInference, c, n, anyImag, h1, h2, h3, inference, fillTurns, turns, predTurn, re, im, Rd.pslice, assignCols]

/-- **C173, when both inputs, or none, have an imaginary part.** A predicted column is the same for two inputs with the same earlier columns. -/
theorem prediction_earlier_partial (c : Train.Cfg W O) (n : Net W O) (idx : Nat) (d d' : List (List (ℝ × ℝ))) (hOut : 0 < c.nOut)
    (hnet : ∀ w win, (c.net w win).length = c.nOut) (m : Nat) (hl : d.length = c.nIn + c.nOut * m) (hl' : d'.length = d.length)
    (him : anyImag d = anyImag d') (o o' : List (List (ℝ × ℝ))) (ho : (modelInference c n idx d).2 = .ok o)
    (ho' : (modelInference c n idx d').2 = .ok o') (j : Nat) (hj : c.nIn ≤ j) (hd : d.take j = d'.take j) : o[j]? = o'[j]? := by
  have key : ∀ (p : List (List (ℝ × ℝ)) → List (List (ℝ × ℝ))), (∀ w, (p w).length = c.nOut) → inference [] c.nIn c.nOut p d = .ok o →
      inference [] c.nIn c.nOut p d' = .ok o' → o[j]? = o'[j]? := by
    intro p hp h h'
    obtain ⟨q, e, el, -, e2⟩ := inference_column_partial [] c.nIn c.nOut hOut p hp d m hl
    obtain ⟨q', e', el', -, e2'⟩ := inference_column_partial [] c.nIn c.nOut hOut p hp d' m (hl'.trans hl)
    obtain rfl : q = o := Except.ok.inj (e.symm.trans h)
    obtain rfl : q' = o' := Except.ok.inj (e'.symm.trans h')
    rcases lt_or_ge j d.length with hlt | hge
    · have hi : (j - c.nIn) / c.nOut < m := by
        rw [Nat.div_lt_iff_lt_mul hOut, mul_comm]; omega
      have hk := Nat.mod_lt (j - c.nIn) hOut
      have hjj : c.nIn + (j - c.nIn) / c.nOut * c.nOut + (j - c.nIn) % c.nOut = j := by
        have := Nat.div_add_mod (j - c.nIn) c.nOut
        rw [mul_comm] at this; omega
      have a := e2 _ _ hi hk
      have a' := e2' _ _ hi hk
      rw [hjj] at a a'
      rw [a, a']
      have : Rd.pslice d ((j - c.nIn) / c.nOut * c.nOut) ((j - c.nIn) / c.nOut * c.nOut + c.nIn) =
          Rd.pslice d' ((j - c.nIn) / c.nOut * c.nOut) ((j - c.nIn) / c.nOut * c.nOut + c.nIn) := by
        unfold Rd.pslice
        have hle : (j - c.nIn) / c.nOut * c.nOut + c.nIn ≤ j := by omega
        have ht : d.take ((j - c.nIn) / c.nOut * c.nOut + c.nIn) = d'.take ((j - c.nIn) / c.nOut * c.nOut + c.nIn) := by
          have := congrArg (List.take ((j - c.nIn) / c.nOut * c.nOut + c.nIn)) hd
          rwa [List.take_take, List.take_take, min_eq_left hle] at this
        rw [← List.drop_take, ← List.drop_take, ht]
      rw [this]
    · rw [List.getElem?_eq_none (by omega), List.getElem?_eq_none (by omega)]
  unfold modelInference at ho ho'
  rw [if_neg (by omega)] at ho ho'
  rw [← him] at ho'
  cases hr : n.files (realName idx) with
  | none => rw [hr] at ho; simp at ho
  | some wr =>
    rw [hr] at ho ho'
    simp only [] at ho ho'
    cases ha : anyImag d with
    | false =>
      rw [ha] at ho ho'
      exact key _ (fun w => by simp [hnet]) ho ho'
    | true =>
      rw [ha] at ho ho'
      cases hi : n.files (imagName idx) with
      | none => rw [hi] at ho; simp at ho
      | some wi =>
        rw [hi] at ho ho'
        exact key _ (fun w => by simp [hnet]) ho ho'

/-- two inputs that differ in the last column, with a network that answers the first column of its window -/
example : ∃ (c : Train.Cfg Unit Unit) (n : Net Unit Unit) (o o' : List (List (ℝ × ℝ))), (∀ w win, (c.net w win).length = c.nOut) ∧
    anyImag [[(1, 0)], [(2, 0)]] = anyImag [[(1, 0)], [(5, 0)]] ∧
    (modelInference c n 0 [[(1, 0)], [(2, 0)]]).2 = .ok o ∧ (modelInference c n 0 [[(1, 0)], [(5, 0)]]).2 = .ok o' ∧ o[1]? = o'[1]? := by
  let c : Train.Cfg Unit Unit := ⟨1, 1, 1, fun _ s => (s, none), fun _ win => [win.headD []]⟩
  refine ⟨c, ⟨((), ()), fun _ => some ()⟩, [[(1, 0)], [(1, 0)]], [[(1, 0)], [(1, 0)]], fun _ _ => rfl, by simp [anyImag], ?_, ?_, rfl⟩
  · simp [modelInference, c, anyImag, inference, fillTurns, turns, predTurn, re, Rd.pslice, assignCols]
  · simp [modelInference, c, anyImag, inference, fillTurns, turns, predTurn, re, Rd.pslice, assignCols]

end

end Verif.Props
