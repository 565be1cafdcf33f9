import Verif.Model.PodCrash
import Verif.Props.Objects
/-
  C230: interrupted POD fits.
-/
namespace Verif.Props
open Verif.Objects Verif.Cache Verif.PodCrash

section
variable {α : Type}

/-- the arrays of a complete fit: weights, modes, eigenvalues -/
def podArrays (v : PodFile → α) : α × α × α := (v .weights, v .modes, v .eigs)

theorem podFitFiles_nodup (new : PodFile → α) : ((podFitFiles new).map (·.1)).Nodup := by simp [podFitFiles, podFitOrder]

/-- The state of every file of a POD fit interrupted after `n` operations (two per file: opened, completed). -/
theorem pod_crash_file (s : PodFile → FileState α) (new : PodFile → α) (n : Nat) (f : PodFile) :
    interrupted s (podFitFiles new) n f =
      if n ≤ 2 * (podFitOrder.idxOf f) then s f else if n = 2 * (podFitOrder.idxOf f) + 1 then .incomplete else .complete (new f) := by
  refine interrupted_at s (podFitFiles new) (podFitFiles_nodup new) n (podFitOrder.idxOf f) f (new f) ?_
  cases f <;> rfl

/-- **C230, partly.** A POD fit into a new folder, interrupted at any point: a later projection raises unless every file is complete, and then it uses the
    arrays of that fit. -/
theorem crash_pod_fresh (lenient : Bool) (new : PodFile → α) (n : Nat) :
    podProjInputs lenient (interrupted (fun _ => .absent) (podFitFiles new) n) = if 8 ≤ n then some (podArrays new) else none := by
  match n with
  | 0 => rfl
  | 1 => rfl
  | 2 => rfl
  | 3 => rfl
  | 4 => rfl
  | 5 => rfl
  | 6 => rfl
  | 7 => rfl
  | n + 8 =>
    rw [if_pos (by omega)]
    simp [interrupted, podFitFiles, podFitOrder, kops, podProjInputs, kstep, Objects.set, load, podArrays]

/-- **C230, exactly.** A second POD fit into the same folder, interrupted after any number of operations. -/
theorem crash_pod_exact (lenient : Bool) (old new : PodFile → α) (n : Nat) :
    podProjInputs lenient (interrupted (fun f => .complete (old f)) (podFitFiles new) n) =
      match n with
      | 0 => some (podArrays old)
      | 2 => some (old .weights, new .modes, old .eigs)
      | 4 | 6 => some (new .weights, new .modes, old .eigs)
      | 5 => if lenient then some (new .weights, new .modes, old .eigs) else none
      | 1 | 3 | 7 => none
      | _ => some (podArrays new) := by
  match n with
  | 0 => rfl
  | 1 => rfl
  | 2 => rfl
  | 3 => rfl
  | 4 => rfl
  | 5 => rfl
  | 6 => rfl
  | 7 => rfl
  | n + 8 => simp [interrupted, podFitFiles, podFitOrder, kops, podProjInputs, kstep, Objects.set, load, podArrays]

/-- **C230, the modes.** Whatever the crash point, a projection that does not raise uses the complete modes of the old or of the new fit; of the new fit as soon as
    their file has been completed. -/
theorem crash_pod_modes_partial (lenient : Bool) (old new : PodFile → α) (n : Nat) (m : α)
    (h : podProjUses lenient (interrupted (fun f => .complete (old f)) (podFitFiles new) n) = some m) :
    n = 0 ∧ m = old .modes ∨ 2 ≤ n ∧ m = new .modes := by
  unfold podProjUses at h
  rw [crash_pod_exact] at h
  match n with
  | 0 => exact Or.inl ⟨rfl, by simpa [podArrays] using h.symm⟩
  | 1 => simp at h
  | 2 => exact Or.inr ⟨by omega, by simpa using h.symm⟩
  | 3 => simp at h
  | 4 => exact Or.inr ⟨by omega, by simpa using h.symm⟩
  | 5 =>
    cases lenient
    · simp at h
    · exact Or.inr ⟨by omega, by simpa using h.symm⟩
  | 6 => exact Or.inr ⟨by omega, by simpa using h.symm⟩
  | 7 => simp at h
  | n + 8 => exact Or.inr ⟨by omega, by simpa [podArrays] using h.symm⟩

/-- **C230, violated.** A folder can be read although its modes belong to the new fit and its eigenvalues to the old one. -/
theorem crash_pod_mixed_fails (old new : PodFile → α) (h1 : new .modes ≠ old .modes) (h2 : new .eigs ≠ old .eigs) :
    ∃ n r, podProjInputs false (interrupted (fun f => .complete (old f)) (podFitFiles new) n) = some r ∧ r ≠ podArrays old ∧ r ≠ podArrays new := by
  refine ⟨2, _, crash_pod_exact false old new 2, ?_, ?_⟩
  · intro h; simp only [podArrays, Prod.mk.injEq] at h; exact h1 h.2.1
  · intro h; simp only [podArrays, Prod.mk.injEq] at h; exact h2 h.2.2.symm

end

/-! ### A case -/

example : podProjInputs false (interrupted (fun _ => .complete 0) (podFitFiles fun f => podFitOrder.idxOf f + 1) 4) = some (2, 1, 0) :=
  crash_pod_exact false (fun _ => 0) _ 4
example : ∃ n r, podProjInputs false (interrupted (fun _ => .complete 0) (podFitFiles fun f => podFitOrder.idxOf f + 1) n) = some r ∧
    r ≠ (0, 0, 0) ∧ r ≠ (2, 1, 4) := crash_pod_mixed_fails (fun _ => 0) (fun f => podFitOrder.idxOf f + 1) (by decide) (by decide)
example : podProjUses false (interrupted (fun _ => .complete 0) (podFitFiles fun f => podFitOrder.idxOf f + 1) 6) = some 1 := rfl

end Verif.Props
