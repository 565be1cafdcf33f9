import Verif.Model.StreamFit
/-
  Which numbers of a streaming fit are finite (/repo/pyspod/spod/streaming.py:157-207, 226-241).  `Verif.Model.StreamFit` divides in a field, where `1/0 = 0`; numpy's
  division by zero gives `inf` or `nan`, and both spread through products and sums.  `none` stands for a number that is not finite.
  Simplifications: exact arithmetic otherwise; the weights are not negative.
-/
namespace Verif.SFit
open Verif Verif.Par Verif.Rd Verif.Spod Verif.Fit Matrix

/-- A sum of numbers some of which may not be finite: a sum with such a term is not finite. -/
noncomputable def sumF {K : Type} [Add K] [Zero K] (l : List (Option K)) : Option K := (l.mapM id).map (List.foldr (· + ·) 0)

/-- A product: not finite as soon as one factor is not, even if the other is zero (`0 * nan` is `nan`). -/
def mulF (a b : Option ℂ) : Option ℂ := a.bind fun x => b.map fun y => x * y

/-- The basis of all ranks at one frequency, see `Basis`. -/
structure FBasis (k : Nat) where
  S : Fin k → Option ℝ
  U : Nat → List Nat → Fin k → Option ℂ

/-- streaming.py:169-170, see `projAll` -/
noncomputable def projF {k : Nat} (p : Nat) (sh : Nat → List Nat) (U : Nat → List Nat → Fin k → Option ℂ) (x : Nat → List Nat → ℂ) (j : Fin k) : Option ℂ :=
  sumF ((List.range p).map fun (r : Nat) => sumF ((List.range (size (sh r))).map fun (i : Nat) =>
    mulF ((U r (unravel (sh r) i) j).map star) (some (x r (unravel (sh r) i)))))

/-- streaming.py:173, see `perpAll` -/
noncomputable def perpF {k : Nat} (U : Nat → List Nat → Fin k → Option ℂ) (x : Nat → List Nat → ℂ) (Ux : Fin k → Option ℂ) (r : Nat) (idx : List Nat) :
    Option ℂ :=
  (sumF ((List.finRange k).map fun j => mulF (U r idx j) (Ux j))).map fun y => x r idx - y

/-- streaming.py:176-178, see `absAll` -/
noncomputable def absF (p : Nat) (sh : Nat → List Nat) (up : Nat → List Nat → Option ℂ) : Option ℝ :=
  (sumF ((List.range p).map fun (r : Nat) => sumF ((List.range (size (sh r))).map fun (i : Nat) =>
    (up r (unravel (sh r) i)).map Complex.normSq))).map Real.sqrt

/-- streaming.py:181: `u_new = u_p / abs_up`; every number divided by zero (or by a number that is not finite) is not finite -/
noncomputable def newF (up : Option ℂ) (a : Option ℝ) : Option ℂ :=
  a.bind fun a => if a = 0 then none else up.map fun u => u / (a : ℂ)

/-- streaming.py:157-207: one update at one frequency on all ranks; `none` = `la.svd` raises.  numpy's `svd` of a matrix with a `nan` raises `LinAlgError` or
    returns numbers that are not finite, depending on the library (`raises`). -/
noncomputable def updateF {k : Nat} (svd : Svd k) (raises : Bool) (p : Nat) (sh : Nat → List Nat) (b : Nat) (B : FBasis k) (x : Nat → List Nat → ℂ) :
    Option (FBasis k) :=
  let Ux := projF p sh B.U x
  let up := perpF B.U x Ux
  let a := absF p sh up
  if (∀ j, (B.S j).isSome ∧ (Ux j).isSome) ∧ a.isSome then
    let (Up, Sp) := svd (kOf (fun j => (B.S j).getD 0) (fun j => (Ux j).getD 0) (a.getD 0) b)
    some { S := fun j => some (Sp (.inl j))
           U := fun r idx j => sumF ((List.finRange k).map (fun l => mulF (B.U r idx l) (some (Up (.inl l) (.inl j)))) ++
             [mulF (newF (up r idx) a) (some (Up (.inr ()) (.inl j)))]) }
  else if raises then none else some ⟨fun _ => none, fun _ _ _ => none⟩

/-- streaming.py:71-72, 96-212: the basis after `M` updates, see `basisAfter` -/
noncomputable def basisF {k : Nat} (svd : Svd k) (raises : Bool) (p : Nat) (sh : Nat → List Nat) (x : Nat → Nat → List Nat → ℂ) (M : Nat) : Option (FBasis k) :=
  (List.range M).foldl (fun B m => B.bind fun B => updateF svd raises p sh (m + 1) B (x m)) (some ⟨fun _ => some 0, fun _ _ _ => some 0⟩)

/-- streaming.py:226-241, see `modesOf`: `u_hat * (1 / sqrt_w)`; at a point of weight zero the second factor is not finite -/
noncomputable def modesF {k : Nat} (w : Arr ℝ) (U : List Nat → Fin k → Option ℂ) : Arr (Option ℂ) where
  shape := w.shape ++ [k]
  at' := fun idx => if h : idx.getLastD 0 < k then
      mulF (U idx.dropLast ⟨_, h⟩) (if w.at' idx.dropLast ≤ 0 then none else some (1 / ((Real.sqrt (w.at' idx.dropLast) : ℝ) : ℂ))) else none

/-- `eigs` in `eigs_freq.npz` and the files `modes/freq_idx_{f}.npy`, with the numbers that are not finite. -/
structure FOut (k : Nat) where
  eigs : Nat → Fin k → Option ℝ
  modes : Nat → NpyFile (Option ℂ)

open Classical in
/-- streaming.py:23-261, see `streamFit`; `none` = an exception on some rank, in particular of `la.svd` at one of the frequencies. -/
noncomputable def floatFit (c : Cfg) (ω : ℂ) (nt : Nat) (svd : Svd (kept c nt)) (raises : Bool) (sched : Sched) (ax p : Nat)
    (ranks : Nat → Rank) : Option (FOut (kept c nt)) :=
  let B : Nat → Option (FBasis (kept c nt)) := fun f => basisF svd raises p (fun r => (ranks r).w.shape)
    (fun m r idx => newCol c ω f m ((ranks r).w.at' idx) (atIdx idx (ranks r).data)) (nUpdates c ω nt)
  if (streamFit c ω nt svd sched ax p ranks).isSome ∧ ∀ f < nFreq c.nDft c.isreal c.full, (B f).isSome then
    some { eigs := fun f => ((B f).getD ⟨fun _ => none, fun _ _ _ => none⟩).S
           modes := fun f => saveAll sched ax ((List.range p).map fun (r : Nat) =>
             modesF (ranks r).w (((B f).getD ⟨fun _ => none, fun _ _ _ => none⟩).U r)) }
  else none

/-- A streaming fit of the array `frames` on `p` ranks, see `streamParallel`. -/
noncomputable def floatStreamParallel (c : Cfg) (ω : ℂ) (frames : List (Arr ℝ)) (w : Arr ℝ)
    (svd : Svd (kept c frames.length)) (raises : Bool) (p : Nat) (sched : (α : Type) → List (Write α) → List (Write α)) :
    Option (FOut (kept c frames.length)) :=
  match maxAxis [frames] with
  | none => none
  | some ax =>
    match (List.range p).mapM fun r => readRank [frames] w ax (some (p, r)) (frames.length + 1) with
    | none => none
    | some rs => floatFit c ω frames.length svd raises (some sched) ax p fun r => rs.getD r ⟨[], ⟨[], fun _ => 0⟩⟩

/-- A serial streaming fit, see `streamSerial`. -/
noncomputable def floatStreamSerial (c : Cfg) (ω : ℂ) (frames : List (Arr ℝ)) (w : Arr ℝ)
    (svd : Svd (kept c frames.length)) (raises : Bool) : Option (FOut (kept c frames.length)) :=
  match maxAxis [frames] with
  | none => none
  | some ax =>
    match readRank [frames] w ax none (frames.length + 1) with
    | none => none
    | some r => floatFit c ω frames.length svd raises none ax 1 fun _ => r

end Verif.SFit
