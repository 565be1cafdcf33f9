import Verif.Model.SharedWrite
/-
  C96: a file that every rank writes at the same time is intact when all ranks have finished.
-/
namespace Verif.Props
open Verif.Shared

theorem writeAt_length (file new : Bytes) (o : Nat) :
    (writeAt file o new).length = max (o + new.length) file.length := by
  simp only [writeAt, List.length_append, List.length_take, List.length_replicate, List.length_drop]
  omega

theorem writeAt_before (file new : Bytes) (o i : Nat) (h : i < o) (h2 : i < file.length) :
    (writeAt file o new)[i]? = file[i]? := by
  rw [writeAt, List.append_assoc, List.getElem?_append_left (by simp; omega), List.getElem?_take_of_lt h,
    List.getElem?_append_left h2]

theorem writeAt_inside (file new : Bytes) (o i : Nat) (h1 : o ≤ i) (h2 : i < o + new.length) :
    (writeAt file o new)[i]? = new[i - o]? := by
  have hl : ((file ++ List.replicate (o - file.length) 0).take o).length = o := by simp; omega
  rw [writeAt, List.append_assoc, List.getElem?_append_right (by omega), hl, List.getElem?_append_left (by omega)]

theorem writeAt_after (file new : Bytes) (o i : Nat) (h : o + new.length ≤ i) : (writeAt file o new)[i]? = file[i]? := by
  have hl : ((file ++ List.replicate (o - file.length) 0).take o).length = o := by simp; omega
  rw [writeAt, List.append_assoc, List.getElem?_append_right (by omega), hl, List.getElem?_append_right (by omega),
    List.getElem?_drop]
  congr 1
  omega

/-- invariant: once the file has been opened, it is not longer than the content, and some rank (the last one to open it)
    has written correctly everything before its position -/
def SharedInv (p : Nat) (c : Bytes) (S : State) : Prop :=
  (∀ r < p, ∀ o, S.pos r = some o → o ≤ c.length) ∧
  ((∀ r < p, S.pos r = none) ∨
    (S.file.length ≤ c.length ∧ ∃ w < p, ∃ o, S.pos w = some o ∧ o ≤ S.file.length ∧ ∀ i < o, S.file[i]? = c[i]?))

theorem shared_inv (p : Nat) (c old : Bytes) (S : State) (h : Reach p c old S) : SharedInv p c S := by
  induction h with
  | init => exact ⟨fun r _ o h => by simp at h, Or.inl fun _ _ => rfl⟩
  | step _ hs ih =>
    rename_i S S' _
    cases hs with
    | opened r hr h =>
      constructor
      · intro q hq o ho
        by_cases e : q = r
        · simp only [e, ↓reduceIte, Option.some.injEq] at ho; omega
        · simp only [e, ↓reduceIte] at ho; exact ih.1 q hq o ho
      · right
        exact ⟨by simp, r, hr, 0, by simp, by simp, fun i hi => by omega⟩
    | write r o n hr h hn =>
      constructor
      · intro q hq o' ho
        by_cases e : q = r
        · simp only [e, ↓reduceIte, Option.some.injEq] at ho; omega
        · simp only [e, ↓reduceIte] at ho; exact ih.1 q hq o' ho
      · right
        rcases ih.2 with h0 | ⟨hlen, w, hw, ow, hpos, hle, hgood⟩
        · rw [h0 r hr] at h; simp at h
        have hnl : ((c.drop o).take n).length = n := by simp; omega
        have hin : ∀ i, o ≤ i → i < o + n → (writeAt S.file o ((c.drop o).take n))[i]? = c[i]? := by
          intro i h1 h2
          rw [writeAt_inside _ _ _ _ h1 (by omega), List.getElem?_take_of_lt (by omega), List.getElem?_drop]
          congr 1
          omega
        have hgood' : ∀ i < ow, (writeAt S.file o ((c.drop o).take n))[i]? = c[i]? := by
          intro i hi
          by_cases h1 : i < o
          · rw [writeAt_before _ _ _ _ h1 (by omega)]; exact hgood i hi
          · by_cases h2 : i < o + n
            · exact hin i (by omega) h2
            · rw [writeAt_after _ _ _ _ (by omega)]; exact hgood i hi
        refine ⟨by simp only [writeAt_length, hnl]; omega, w, hw, ?_⟩
        by_cases e : w = r
        · subst e
          rw [hpos] at h
          simp only [Option.some.injEq] at h
          subst h
          refine ⟨ow + n, by simp, by simp only [writeAt_length, hnl]; omega, fun i hi => ?_⟩
          by_cases h1 : i < ow
          · exact hgood' i h1
          · exact hin i (by omega) hi
        · refine ⟨ow, by simp only [e, ↓reduceIte]; exact hpos, by simp only [writeAt_length, hnl]; omega, hgood'⟩

/-- **C96.** All `p ≥ 1` ranks write the content `c` to the same file, each opening it (which empties it) and writing in
    pieces of any size, in any interleaving, over any old content: when all have finished, the file holds exactly `c`. -/
theorem shared_write_intact (p : Nat) (hp : 0 < p) (c old : Bytes) (S : State) (h : Reach p c old S)
    (hd : Done p c S) : S.file = c := by
  obtain ⟨_, h0 | ⟨hlen, w, hw, o, hpos, hle, hgood⟩⟩ := shared_inv p c old S h
  · have := hd 0 hp; rw [h0 0 hp] at this; simp at this
  · rw [hd w hw] at hpos
    simp only [Option.some.injEq] at hpos
    subst hpos
    apply List.ext_getElem?
    intro i
    by_cases hi : i < c.length
    · exact hgood i hi
    · rw [List.getElem?_eq_none (by omega), List.getElem?_eq_none (by omega)]

/-- **C96 (why the barrier after it is needed).** Before the last rank has finished the file can be anything from empty:
    a rank that has finished writing may find the file empty, when another has just opened it. -/
theorem shared_write_early_fails (c : Bytes) (hc : 0 < c.length) :
    ∃ S, Reach 2 c [] S ∧ S.pos 0 = some c.length ∧ S.file ≠ c := by
  refine ⟨_, .step (.step (.step .init (.opened _ 0 (by omega) rfl)) (.write _ 0 0 c.length (by omega) rfl (by simp)))
    (.opened _ 1 (by omega) rfl), by simp, ?_⟩
  intro h
  rw [← h] at hc
  simp at hc

/-- two ranks, pieces of different size, the second rank opening the file half-way: a hole appears and is filled -/
example : ∃ S, Reach 2 [7, 8, 9] [1, 2, 3, 4, 5] S ∧ Done 2 [7, 8, 9] S := by
  refine ⟨_, .step (.step (.step (.step (.step .init (.opened _ 0 (by omega) rfl)) (.write _ 0 0 2 (by omega) rfl (by decide)))
    (.opened _ 1 (by omega) rfl)) (.write _ 0 2 1 (by omega) rfl (by decide))) (.write _ 1 0 3 (by omega) rfl (by decide)), ?_⟩
  intro r hr
  match r, hr with
  | 0, _ => rfl
  | 1, _ => rfl

end Verif.Props
