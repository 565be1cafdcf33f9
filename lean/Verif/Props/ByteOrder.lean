import Verif.Model.ByteOrder
import Verif.Props.Fit
import Verif.Props.Project
/-
  C122, C123: byte order and precision of the weights.
-/
namespace Verif.Props
open Verif Verif.Par Verif.Fit Verif.Bytes

/-- what the user means: the native bytes of every element of the weights, converted to the type of the results where that is done -/
def wantedBytes (cast : DType → DType → List UInt8 → List UInt8) (double : Bool) (b : Buffer) (idx : List Nat) : List UInt8 :=
  native (setDtype double b.dt) (cast b.dt (setDtype double b.dt) (b.words.at' idx))

theorem dist_map {α β} (f : α → β) (A : Arr α) (ax : Nat) (c : Comm) :
    distributeDimension (⟨A.shape, fun idx => f (A.at' idx)⟩ : Arr β) ax c =
      ⟨(distributeDimension A ax c).shape, fun idx => f ((distributeDimension A ax c).at' idx)⟩ := by
  cases c with
  | none => rfl
  | some q => rfl

/-- the converted weights -/
def castArr (cast : DType → DType → List UInt8 → List UInt8) (double : Bool) (b : Buffer) : Arr (List UInt8) :=
  ⟨b.words.shape, fun idx => cast b.dt (setDtype double b.dt) (b.words.at' idx)⟩

/-- the file in terms of the whole array, on any number of ranks -/
theorem weights_file_eq (cast : DType → DType → List UInt8 → List UInt8) (double : Bool) (b : Buffer) (ax : Nat)
    (hax : ax < b.words.shape.length) (comms : List Comm) (sched : Sched) (hrun : IsRun comms sched) :
    (weightsFile cast double b ax comms sched).file =
      npSave (castArr cast double b) ∧
    (weightsFile cast double b ax comms sched).dt =
      { setDtype double b.dt with swapped := (setDtype double b.dt).swapped && decide (comms = [none]) } := by
  rcases hrun with ⟨rfl, rfl⟩ | ⟨p, s, hp, hs, rfl, rfl⟩
  · refine ⟨rfl, ?_⟩
    simp [weightsFile, viewNative]
  · constructor
    · simp only [weightsFile, Proj.ranksOf, List.map_map]
      refine saveAll_slabs (castArr cast double b) ax p hp hax s hs _ fun r hr => ?_
      unfold castArr
      rw [dist_map]
      exact Arr.Eqv.refl _
    · obtain ⟨q, rfl⟩ : ∃ q, p = q + 1 := ⟨p - 1, by omega⟩
      have h1 : Proj.ranksOf (q + 1) ≠ [none] := by
        simp [Proj.ranksOf, List.range_succ_eq_map]
      have h2 : (Proj.ranksOf (q + 1)).headD none = some (q + 1, 0) := by
        simp [Proj.ranksOf, List.range_succ_eq_map]
      simp only [weightsFile, h2, viewNative, h1, decide_false, Bool.and_false]

theorem read_npSave (f : WFile) (A : Arr (List UInt8)) (hf : f.file = npSave A) (k : Nat) (hk : k < size A.shape) :
    f.read k = native f.dt (A.at' (unravel A.shape k)) := by
  simp [WFile.read, hf, npSave, hk]

/-- **C122.** On one process the stored weights are the given ones, in any byte order. -/
theorem weights_serial_bytes (cast : DType → DType → List UInt8 → List UInt8) (double : Bool) (b : Buffer) (ax : Nat)
    (hax : ax < b.words.shape.length) (k : Nat) (hk : k < size b.words.shape) :
    (weightsFile cast double b ax [none] none).read k = wantedBytes cast double b (unravel b.words.shape k) := by
  obtain ⟨h1, h2⟩ := weights_file_eq cast double b ax hax [none] none (Or.inl ⟨rfl, rfl⟩)
  rw [read_npSave _ _ h1 k hk, h2]
  simp [wantedBytes, castArr]

/-- **C122, exactly.** On a communicator of any size, under any order of the element writes, the stored weights are the given ones exactly when these
    have the machine's byte order or every element reads the same in both orders. -/
theorem weights_parallel_bytes_exact (cast : DType → DType → List UInt8 → List UInt8) (double : Bool) (b : Buffer) (ax : Nat)
    (hax : ax < b.words.shape.length) (p : Nat) (hp : 0 < p) (s : (β : Type) → List (Write β) → List (Write β))
    (hs : ∀ β l, (s β l).Perm l) :
    (∀ k < size b.words.shape, (weightsFile cast double b ax (Proj.ranksOf p) (some s)).read k =
        wantedBytes cast double b (unravel b.words.shape k)) ↔
      b.dt.swapped = false ∨ ∀ k < size b.words.shape,
        cast b.dt b.dt (b.words.at' (unravel b.words.shape k)) =
          swapBytes b.dt.kind (cast b.dt b.dt (b.words.at' (unravel b.words.shape k))) := by
  obtain ⟨h1, h2⟩ := weights_file_eq cast double b ax hax (Proj.ranksOf p) (some s) (Or.inr ⟨p, s, hp, hs, rfl, rfl⟩)
  have h3 : Proj.ranksOf p ≠ [none] := by
    obtain ⟨q, rfl⟩ : ∃ q, p = q + 1 := ⟨p - 1, by omega⟩
    simp [Proj.ranksOf, List.range_succ_eq_map]
  have key : ∀ k < size b.words.shape, (weightsFile cast double b ax (Proj.ranksOf p) (some s)).read k =
      cast b.dt (setDtype double b.dt) (b.words.at' (unravel b.words.shape k)) := by
    intro k hk
    rw [read_npSave _ _ h1 k hk, h2]
    simp [native, h3, castArr]
  cases hsw : b.dt.swapped with
  | false =>
    have : (setDtype double b.dt).swapped = false := by
      unfold setDtype floatOf complexOf
      split
      · rfl
      · split
        · rfl
        · exact hsw
    simp only [true_or, iff_true]
    intro k hk
    rw [key k hk]
    simp [wantedBytes, native, this]
  | true =>
    have hd : setDtype double b.dt = b.dt := by
      unfold setDtype
      rw [if_neg, if_neg]
      · intro h; rw [h] at hsw; simp at hsw
      · intro h; rw [h] at hsw; simp at hsw
    have hw : ∀ k, wantedBytes cast double b (unravel b.words.shape k) =
        swapBytes b.dt.kind (cast b.dt b.dt (b.words.at' (unravel b.words.shape k))) := by
      intro k
      simp [wantedBytes, hd, native, hsw]
    simp only [Bool.true_eq_false, false_or]
    constructor
    · intro H k hk
      have := H k hk
      rw [key k hk, hw, hd] at this
      exact this
    · intro H k hk
      rw [key k hk, hw, hd]
      exact H k hk

/-- what the other byte order is: the bytes of a number reversed, for a complex number those of each part -/
theorem other_order (re im : List UInt8) (h : re.length = im.length) (k : Kind) :
    swapBytes .complex (re ++ im) = re.reverse ++ im.reverse ∧ (k ≠ .complex → swapBytes k re = re.reverse) := by
  have e : (re ++ im).length / 2 = re.length := by rw [List.length_append, ← h]; omega
  refine ⟨by simp only [swapBytes, e, List.take_left', List.drop_left'], fun hk => ?_⟩
  cases k <;> first | rfl | exact absurd rfl hk

/-- the identity conversion -/
def idCast : DType → DType → List UInt8 → List UInt8 := fun _ _ w => w

/-- one weight equal to 1.0 in big-endian double precision (bytes 3F F0 0 0 0 0 0 0) on a little-endian machine -/
def bigOne (shape : List Nat) : Buffer := ⟨⟨.float, 8, true⟩, ⟨shape, fun _ => [0x3f, 0xf0, 0, 0, 0, 0, 0, 0]⟩⟩

/-- **C122, violated.** Big-endian weights of value one on any non-empty grid: a communicator of any size, also a single process in a communicator,
    stores another number. -/
theorem weights_big_endian_fails (shape : List Nat) (ax : Nat) (hax : ax < shape.length) (hpos : 0 < size shape) (double : Bool) (p : Nat)
    (hp : 0 < p) (s : (β : Type) → List (Write β) → List (Write β)) (hs : ∀ β l, (s β l).Perm l) :
    ¬ ∀ k < size shape, (weightsFile idCast double (bigOne shape) ax (Proj.ranksOf p) (some s)).read k =
      wantedBytes idCast double (bigOne shape) (unravel shape k) := by
  intro H
  have := (weights_parallel_bytes_exact idCast double (bigOne shape) ax hax p hp s hs).1 H
  rcases this with h | h
  · simp [bigOne] at h
  · have := h 0 hpos
    simp [bigOne, idCast, swapBytes] at this

/-- **C122, partly.** Weights in the machine's byte order: the same file values on every number of ranks. -/
theorem weights_native_partial (cast : DType → DType → List UInt8 → List UInt8) (double : Bool) (b : Buffer) (ax : Nat)
    (hax : ax < b.words.shape.length) (hn : b.dt.swapped = false) (p : Nat) (hp : 0 < p)
    (s : (β : Type) → List (Write β) → List (Write β)) (hs : ∀ β l, (s β l).Perm l) (k : Nat) (hk : k < size b.words.shape) :
    (weightsFile cast double b ax (Proj.ranksOf p) (some s)).read k = (weightsFile cast double b ax [none] none).read k := by
  rw [weights_serial_bytes cast double b ax hax k hk]
  exact (weights_parallel_bytes_exact cast double b ax hax p hp s hs).2 (Or.inl hn) k hk

example : (weightsFile idCast true ⟨⟨.float, 8, false⟩, ⟨[2, 1], fun _ => [0, 0, 0, 0, 0, 0, 0xf0, 0x3f]⟩⟩ 0 (Proj.ranksOf 3)
    (some fun _ l => l.reverse)).read 1 =
    (weightsFile idCast true ⟨⟨.float, 8, false⟩, ⟨[2, 1], fun _ => [0, 0, 0, 0, 0, 0, 0xf0, 0x3f]⟩⟩ 0 [none] none).read 1 :=
  weights_native_partial _ _ _ _ (by decide) rfl 3 (by decide) _ (fun _ l => List.reverse_perm l) 1 (by decide)

/-! ### C123 -/

/-- the real type of the results: native, 8 bytes for `dtype: double` and 4 bytes otherwise -/
def resultFloat (double : Bool) : DType := if double then ⟨.float, 8, false⟩ else ⟨.float, 4, false⟩

/-- **C123, exactly.** The stored weights have the real type of the results exactly when they are given as native double precision or already in that
    type. -/
theorem stored_float_exact (double : Bool) (d : DType) :
    setDtype double d = resultFloat double ↔ d = ⟨.float, 8, false⟩ ∨ d = resultFloat double := by
  have hr : resultFloat double = floatOf double := by cases double <;> rfl
  rw [hr]
  unfold setDtype
  constructor
  · intro h
    split at h
    · left; assumption
    · split at h
      · simp [complexOf, floatOf] at h
      · exact Or.inr h
  · rintro (rfl | h)
    · simp
    · rw [h]
      cases double <;> simp [floatOf]

/-- **C123, violated.** Single precision, integers and the other byte order stay what they are when `dtype` is `double`. -/
theorem stored_float_fails (d : DType) (h : d.bytes ≠ 8 ∨ d.swapped = true ∨ d.kind = .other) (hc : d ≠ ⟨.complex, 16, false⟩) :
    setDtype true d = d ∧ d ≠ resultFloat true := by
  have h1 : d ≠ ⟨.float, 8, false⟩ := by
    rintro rfl; simp at h
  exact ⟨by rw [setDtype, if_neg h1, if_neg hc], h1⟩

example : setDtype true ⟨.float, 4, false⟩ = ⟨.float, 4, false⟩ ∧ (⟨.float, 4, false⟩ : DType) ≠ resultFloat true :=
  stored_float_fails _ (Or.inl (by decide)) (by decide)

end Verif.Props
