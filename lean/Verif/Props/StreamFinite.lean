import Verif.Model.StreamFloat
import Verif.Props.StreamInv
/-
  C184: which numbers of a streaming fit are finite.
-/
namespace Verif.Props
open Verif Verif.Par Verif.Rd Verif.Spod Verif.Fit Verif.SFit Matrix

/-! ### Sums and products -/

theorem mapM_id_map {α β} (l : List α) (g : α → β) : (l.map fun a => some (g a)).mapM id = some (l.map g) := by
  rw [List.mapM_map]
  exact mapM_some _ _ _ fun b _ => rfl

theorem mapM_id_mem_none {α} (l : List (Option α)) (h : none ∈ l) : l.mapM id = none := by
  induction l with
  | nil => simp at h
  | cons a l ih =>
    cases a with
    | none => rfl
    | some a =>
      have : none ∈ l := by simpa using h
      simp [List.mapM_cons, ih this]

theorem sumF_some {K α} [Add K] [Zero K] (l : List α) (g : α → K) : sumF (l.map fun a => some (g a)) = some ((l.map g).foldr (· + ·) 0) := by
  unfold sumF
  rw [mapM_id_map]
  rfl

theorem sumF_none {K} [Add K] [Zero K] (l : List (Option K)) (h : none ∈ l) : sumF l = none := by
  unfold sumF
  rw [mapM_id_mem_none l h]
  rfl

theorem foldr_plus {K} [Add K] [Zero K] (l : List K) : l.foldr (· + ·) 0 = l.sum := rfl

theorem foldr_range_sum {K} [AddCommMonoid K] (n : Nat) (g : Nat → K) : ((List.range n).map g).foldr (· + ·) 0 = ∑ i ∈ Finset.range n, g i := by
  rw [foldr_plus, Finset.sum_range, ← List.sum_ofFn, List.ofFn_eq_map, ← List.map_coe_finRange_eq_range, List.map_map]
  rfl

/-! ### One update -/

/-- all numbers finite -/
def liftB {k : Nat} (B : Basis k) : FBasis k := ⟨fun j => some (B.S j), fun r i j => some (B.U r i j)⟩

theorem projF_lift {k : Nat} (p : Nat) (sh : Nat → List Nat) (B : Basis k) (x : Nat → List Nat → ℂ) (j : Fin k) :
    projF p sh (liftB B).U x j = some (projAll p sh B.U x j) := by
  unfold projF projAll liftB
  simp only [Option.map_some, mulF, Option.bind_some, sumF_some, foldr_range_sum, allreduce]

theorem perpF_lift {k : Nat} (B : Basis k) (x : Nat → List Nat → ℂ) (Ux : Fin k → ℂ) (r : Nat) (idx : List Nat) :
    perpF (liftB B).U x (fun j => some (Ux j)) r idx = some (perpAll B.U x Ux r idx) := by
  unfold perpF perpAll liftB
  simp only [Option.map_some, mulF, Option.bind_some, sumF_some, foldr_plus, Fin.sum_univ_def]

theorem absF_some (p : Nat) (sh : Nat → List Nat) (up : Nat → List Nat → ℂ) : absF p sh (fun r i => some (up r i)) = some (absAll p sh up) := by
  unfold absF absAll
  simp only [Option.map_some, sumF_some, foldr_range_sum, allreduce]

/-- the length of what the new block adds to the basis (streaming.py:173-178) -/
noncomputable def newLength {k : Nat} (p : Nat) (sh : Nat → List Nat) (B : Basis k) (x : Nat → List Nat → ℂ) : ℝ :=
  absAll p sh (perpAll B.U x (projAll p sh B.U x))

theorem updateF_lift {k : Nat} (svd : Svd k) (raises : Bool) (p : Nat) (sh : Nat → List Nat) (b : Nat) (B : Basis k) (x : Nat → List Nat → ℂ) :
    updateF svd raises p sh b (liftB B) x = some (if newLength p sh B x = 0 then
      ⟨fun j => some ((updateAll svd p sh b B x).S j), fun _ _ _ => none⟩ else liftB (updateAll svd p sh b B x)) := by
  have h1 : projF p sh (liftB B).U x = fun j => some (projAll p sh B.U x j) := funext fun j => projF_lift p sh B x j
  have h2 : perpF (liftB B).U x (fun j => some (projAll p sh B.U x j)) = fun r i => some (perpAll B.U x (projAll p sh B.U x) r i) :=
    funext fun r => funext fun i => perpF_lift B x _ r i
  unfold updateF
  simp only [h1, h2, absF_some]
  have hk : (∀ j, ((liftB B).S j).isSome ∧ (some (projAll p sh B.U x j)).isSome) ∧
      (some (absAll p sh (perpAll B.U x (projAll p sh B.U x)))).isSome := by simp [liftB]
  rw [if_pos hk]
  congr 1
  by_cases h0 : newLength p sh B x = 0
  · rw [if_pos h0]
    congr 1
    funext r idx j
    apply sumF_none
    apply List.mem_append_right
    simp only [newLength] at h0
    simp [newF, h0, mulF]
  · rw [if_neg h0]
    simp only [liftB, FBasis.mk.injEq]
    refine ⟨rfl, ?_⟩
    funext r idx j
    simp only [newLength] at h0
    have e : ∀ (g : Fin k → ℂ) (y : ℂ), sumF ((List.finRange k).map (fun l => some (g l)) ++ [some y]) = some ((∑ l, g l) + y) := by
      intro g y
      unfold sumF
      have : (List.finRange k).map (fun l => some (g l)) ++ [some y] = (((List.finRange k).map g) ++ [y]).map some := by simp
      rw [this]
      have e2 := mapM_id_map (((List.finRange k).map g) ++ [y]) id
      simp only [id_eq] at e2
      rw [e2]
      rw [Option.map_some, foldr_plus, List.map_id, List.sum_append, Fin.sum_univ_def]
      simp
    simp only [mulF, Option.bind_some, Option.map_some, newF, h0, ↓reduceIte, e]
    rfl

theorem updateF_none {k : Nat} (hk : 0 < k) (svd : Svd k) (raises : Bool) (p : Nat) (sh : Nat → List Nat) (b : Nat) (B : FBasis k)
    (x : Nat → List Nat → ℂ) (hB : ∀ r i j, B.U r i j = none) (hp : ∃ r < p, 0 < size (sh r)) :
    updateF svd raises p sh b B x = none ∨ ∃ B', updateF svd raises p sh b B x = some B' ∧ ∀ r i j, B'.U r i j = none := by
  obtain ⟨r, hr, hs⟩ := hp
  have h1 : projF p sh B.U x ⟨0, hk⟩ = none := by
    unfold projF
    apply sumF_none
    apply List.mem_map.2
    refine ⟨r, List.mem_range.2 hr, ?_⟩
    apply sumF_none
    apply List.mem_map.2
    exact ⟨0, List.mem_range.2 hs, by simp [hB, mulF]⟩
  unfold updateF
  simp only
  rw [if_neg (by
    rintro ⟨h, -⟩
    have := (h ⟨0, hk⟩).2
    rw [h1] at this
    cases this)]
  cases raises
  · right
    exact ⟨_, rfl, fun _ _ _ => rfl⟩
  · left
    rfl

/-! ### All updates -/

theorem basisF_succ {k : Nat} (svd : Svd k) (raises : Bool) (p : Nat) (sh : Nat → List Nat) (x : Nat → Nat → List Nat → ℂ) (M : Nat) :
    basisF svd raises p sh x (M + 1) = (basisF svd raises p sh x M).bind fun B => updateF svd raises p sh (M + 1) B (x M) := by
  simp [basisF, List.range_succ]

theorem basisF_good {k : Nat} (svd : Svd k) (raises : Bool) (p : Nat) (sh : Nat → List Nat) (x : Nat → Nat → List Nat → ℂ) (M : Nat)
    (h : ∀ m < M, newLength p sh (basisAfter svd p sh x m) (x m) ≠ 0) : basisF svd raises p sh x M = some (liftB (basisAfter svd p sh x M)) := by
  induction M with
  | zero => rfl
  | succ M ih =>
    rw [basisF_succ, ih fun m hm => h m (by omega), Option.bind_some, updateF_lift, if_neg (h M (by omega)), basisAfter_succ]

theorem basisF_bad {k : Nat} (hk : 0 < k) (svd : Svd k) (raises : Bool) (p : Nat) (sh : Nat → List Nat) (x : Nat → Nat → List Nat → ℂ) (M : Nat)
    (h : ∃ m < M, newLength p sh (basisAfter svd p sh x m) (x m) = 0) (hp : ∃ r < p, 0 < size (sh r)) :
    basisF svd raises p sh x M = none ∨ ∃ B, basisF svd raises p sh x M = some B ∧ ∀ r i j, B.U r i j = none := by
  induction M with
  | zero =>
    obtain ⟨m, hm, -⟩ := h
    omega
  | succ M ih =>
    rw [basisF_succ]
    by_cases h' : ∃ m < M, newLength p sh (basisAfter svd p sh x m) (x m) = 0
    · rcases ih h' with e | ⟨B, e, hB⟩
      · left; rw [e]; rfl
      · rw [e, Option.bind_some]
        exact updateF_none hk svd raises p sh (M + 1) B (x M) hB hp
    · push Not at h'
      obtain ⟨m, hm, h0⟩ := h
      have : m = M := by
        by_contra hne
        exact h' m (by omega) h0
      subst this
      right
      rw [basisF_good svd raises p sh x m h', Option.bind_some, updateF_lift, if_pos h0]
      exact ⟨_, rfl, fun _ _ _ => rfl⟩

/-! ### The lengths do not depend on the number of ranks -/

theorem length_slab {k : Nat} (sh : List Nat) (ax p : Nat) (hp : 0 < p) (hax : ax < sh.length) (B B1 : Basis k)
    (x : Nat → List Nat → ℂ) (X : List Nat → ℂ) (hU : IsSlab sh ax p B.U (B1.U 0)) (hx : IsSlab sh ax p x X) :
    newLength p (fun r => sh.set ax (countOf (ext sh ax) p r)) B x = newLength 1 (fun _ => sh) B1 fun _ => X := by
  have hproj : projAll p (fun r => sh.set ax (countOf (ext sh ax) p r)) B.U x = projAll 1 (fun _ => sh) B1.U fun _ => X := by
    funext j
    unfold projAll
    have := slab_sum sh ax p hp hax fun i => star (B1.U 0 i j) * X i
    simp only [List.range_one, List.map_cons, List.map_nil, allreduce, List.foldr_cons, List.foldr_nil, add_zero] at this ⊢
    rw [← this]
    congr 1
    apply List.map_congr_left
    intro r hr
    apply Finset.sum_congr rfl
    intro i hi
    have hi := inRange_unravel (Finset.mem_range.1 hi)
    have hr := List.mem_range.1 hr
    rw [hU r hr _ hi, hx r hr _ hi]
  have hperp : IsSlab sh ax p (perpAll B.U x (projAll 1 (fun _ => sh) B1.U fun _ => X))
      (perpAll B1.U (fun _ => X) (projAll 1 (fun _ => sh) B1.U fun _ => X) 0) := by
    intro r hr i hi
    simp only [perpAll]
    rw [hU r hr i hi, hx r hr i hi]
  unfold newLength
  rw [hproj]
  unfold absAll
  congr 1
  have := slab_sum sh ax p hp hax fun i =>
    Complex.normSq (perpAll B1.U (fun _ => X) (projAll 1 (fun _ => sh) B1.U fun _ => X) 0 i)
  simp only [List.range_one, List.map_cons, List.map_nil, allreduce, List.foldr_cons, List.foldr_nil, add_zero] at this ⊢
  rw [← this]
  congr 1
  apply List.map_congr_left
  intro r hr
  apply Finset.sum_congr rfl
  intro i hi
  rw [hperp r (List.mem_range.1 hr) _ (inRange_unravel (Finset.mem_range.1 hi))]

/-! ### The whole fit -/

/-- the length added by update `m` at frequency `f` -/
noncomputable def lengthAt (c : Cfg) (ω : ℂ) (f m : Nat) (frames : List (Arr ℝ)) (w : Arr ℝ) (svd : Svd (kept c frames.length)) : ℝ :=
  newLength 1 (fun _ => w.shape) (basisAfter svd 1 (fun _ => w.shape) (fun m _ idx => newCol c ω f m (w.at' idx) (atIdx idx frames)) m)
    fun _ idx => newCol c ω f m (w.at' idx) (atIdx idx frames)

/-- the file with the numbers at points whose weight is not positive replaced -/
noncomputable def markZero (w : Arr ℝ) (A : Arr ℂ) : Arr (Option ℂ) :=
  ⟨A.shape, fun idx => if w.at' idx.dropLast ≤ 0 then none else some (A.at' idx)⟩

theorem modesF_good {k : Nat} (w : Arr ℝ) (U : List Nat → Fin k → ℂ) :
    (modesF w fun i j => some (U i j)).Eqv (markZero w (modesOf w U)) := by
  refine ⟨rfl, fun idx hidx => ?_⟩
  obtain ⟨i, j, rfl, hi, hj⟩ := inRange_append hidx
  simp only [modesF, markZero, modesOf, List.getLastD_concat, List.dropLast_concat, hj, ↓reduceDIte]
  by_cases h : w.at' i ≤ 0
  · simp [h, mulF]
  · simp [h, mulF]

theorem modesF_bad {k : Nat} (w : Arr ℝ) : (modesF w fun (_ : List Nat) (_ : Fin k) => none).Eqv ⟨w.shape ++ [k], fun _ => none⟩ := by
  refine ⟨rfl, fun idx hidx => ?_⟩
  obtain ⟨i, j, rfl, hi, hj⟩ := inRange_append hidx
  simp only [modesF, List.getLastD_concat, List.dropLast_concat, hj, ↓reduceDIte, mulF]
  rfl

theorem newLength_congr {k : Nat} (p : Nat) (sh sh' : Nat → List Nat) (h : ∀ r < p, sh r = sh' r) (B : Basis k) (x : Nat → List Nat → ℂ) :
    newLength p sh B x = newLength p sh' B x := by
  have h1 : projAll p sh B.U x = projAll p sh' B.U x := by
    funext j
    unfold projAll
    congr 1
    apply List.map_congr_left
    intro r hr
    rw [h r (List.mem_range.1 hr)]
  unfold newLength
  rw [h1]
  unfold absAll
  congr 2
  apply List.map_congr_left
  intro r hr
  rw [h r (List.mem_range.1 hr)]

theorem Eqv_trans {α} {a b c : Arr α} (h : a.Eqv b) (h' : b.Eqv c) : a.Eqv c :=
  ⟨h.1.trans h'.1, fun i hi => (h.2 i hi).trans (h'.2 i (by rw [← h.1]; exact hi))⟩

theorem modesF_slab {k : Nat} (w : Arr ℝ) (ax p r : Nat) (hr : r < p) (hax : ax < w.shape.length)
    (u : Nat → List Nat → Fin k → ℂ) (U : List Nat → Fin k → ℂ) (h : IsSlab w.shape ax p u U) :
    (modesF (distributeDimension w ax (some (p, r))) fun i j => some (u r i j)).Eqv
      (distributeDimension (markZero w (modesOf w U)) ax (some (p, r))) := by
  refine Eqv_trans (modesF_good _ _) ?_
  obtain ⟨e1, e2⟩ := modes_slab w ax p r hr hax u U h
  refine ⟨e1, fun idx hidx => ?_⟩
  have := e2 idx hidx
  obtain ⟨x, j, rfl, hx, hj⟩ := inRange_append hidx
  have hxl : ax < x.length := by
    have := hx.length
    simp only [distributeDimension, Arr.slice, List.length_set] at this
    omega
  have hext : ext (w.shape ++ [k]) ax = ext w.shape ax := by
    simp [ext, List.getD_eq_getElem?_getD, List.getElem?_append_left hax]
  have hg : (x ++ [j]).getD ax 0 = x.getD ax 0 := by
    simp [List.getD_eq_getElem?_getD, List.getElem?_append_left hxl]
  simp only [markZero] at this ⊢
  rw [this]
  simp only [distributeDimension, Arr.slice, modesOf, hext]
  rw [List.set_append_left _ _ hxl]
  simp only [List.dropLast_concat, hg]

/-- what the ranks of a parallel fit hold -/
def SlabRanks (frames : List (Arr ℝ)) (w : Arr ℝ) (ax p : Nat) (ranks : Nat → Rank) : Prop :=
  ∀ r < p, ranks r = ⟨frames.map fun a => distributeDimension a ax (some (p, r)), distributeDimension w ax (some (p, r))⟩

section
variable (c : Cfg) (ω : ℂ) (frames : List (Arr ℝ)) (w : Arr ℝ) (svd : Svd (kept c frames.length)) (raises : Bool)

theorem rank_slab (hsh : ∀ a ∈ frames, a.shape = w.shape) (ax p : Nat) (ranks : Nat → Rank)
    (hranks : SlabRanks frames w ax p ranks) (f m : Nat) :
    IsSlab w.shape ax p (fun r idx => newCol c ω f m ((ranks r).w.at' idx) (atIdx idx (ranks r).data))
      fun idx => newCol c ω f m (w.at' idx) (atIdx idx frames) := by
  intro r hr i hi
  simp only [hranks r hr, slab_at]
  rw [atIdx_slab frames w hsh ax p r i]
  rfl

theorem rank_basis (hsh : ∀ a ∈ frames, a.shape = w.shape) (ax p : Nat) (hp : 0 < p) (hax : ax < w.shape.length) (ranks : Nat → Rank)
    (hranks : SlabRanks frames w ax p ranks) (f M : Nat) :
    let B := basisAfter svd p (fun r => (ranks r).w.shape) (fun m r idx => newCol c ω f m ((ranks r).w.at' idx) (atIdx idx (ranks r).data)) M
    let B1 := basisAfter svd 1 (fun _ => w.shape) (fun m _ idx => newCol c ω f m (w.at' idx) (atIdx idx frames)) M
    B.S = B1.S ∧ IsSlab w.shape ax p B.U (B1.U 0) := by
  have h : ∀ r < p, (ranks r).w.shape = w.shape.set ax (countOf (ext w.shape ax) p r) := by
    intro r hr
    rw [hranks r hr]
    exact slab_shape w ax p r hp hr
  simp only
  rw [basisAfter_congr svd p _ _ h]
  exact basis_slab w.shape ax p hp hax svd _ _ (rank_slab c ω frames w hsh ax p ranks hranks f) M

theorem rank_length (hsh : ∀ a ∈ frames, a.shape = w.shape) (ax p : Nat) (hp : 0 < p) (hax : ax < w.shape.length) (ranks : Nat → Rank)
    (hranks : SlabRanks frames w ax p ranks) (f m : Nat) :
    newLength p (fun r => (ranks r).w.shape) (basisAfter svd p (fun r => (ranks r).w.shape)
      (fun m r idx => newCol c ω f m ((ranks r).w.at' idx) (atIdx idx (ranks r).data)) m)
      (fun r idx => newCol c ω f m ((ranks r).w.at' idx) (atIdx idx (ranks r).data)) = lengthAt c ω f m frames w svd := by
  have h : ∀ r < p, (ranks r).w.shape = w.shape.set ax (countOf (ext w.shape ax) p r) := by
    intro r hr
    rw [hranks r hr]
    exact slab_shape w ax p r hp hr
  rw [newLength_congr p _ _ h]
  exact length_slab w.shape ax p hp hax _ _ _ _ (rank_basis c ω frames w svd hsh ax p hp hax ranks hranks f m).2
    (rank_slab c ω frames w hsh ax p ranks hranks f m)

/-- What a run with numbers that may not be finite leaves, compared with the exact model: at frequencies where every update adds a positive length, the
    eigenvalues and modes of the exact model, apart from the points whose weight is not positive; at frequencies where some update adds nothing, no finite
    mode; and an exception only if there is such a frequency. -/
def FloatSpec (fo : Option (FOut (kept c frames.length))) : Prop :=
  ((∀ f < nFreq c.nDft c.isreal c.full, ∀ m < nUpdates c ω frames.length, lengthAt c ω f m frames w svd ≠ 0) → fo.isSome) ∧
  ∀ o, fo = some o → ∀ f < nFreq c.nDft c.isreal c.full,
    ((∀ m < nUpdates c ω frames.length, lengthAt c ω f m frames w svd ≠ 0) →
      (∀ j, o.eigs f j = some ((globalStream c ω frames w svd).eigs f j)) ∧
      o.modes f = npSave (markZero w (modesOf w ((lastBasis c ω frames.length f frames w svd).U 0)))) ∧
    ((∃ m < nUpdates c ω frames.length, lengthAt c ω f m frames w svd = 0) →
      o.modes f = npSave ⟨w.shape ++ [kept c frames.length], fun _ => none⟩)

theorem float_par_spec (h : StreamAccepted c frames w) (hsz : 0 < size w.shape) (ax p : Nat) (hp : 0 < p) (hax : ax < w.shape.length) (ranks : Nat → Rank)
    (hranks : SlabRanks frames w ax p ranks) (s : (β : Type) → List (Write β) → List (Write β)) (hs : ∀ β l, (s β l).Perm l)
    (hok : (streamFit c ω frames.length svd (some s) ax p ranks).isSome) :
    FloatSpec c ω frames w svd (floatFit c ω frames.length svd raises (some s) ax p ranks) := by
  have hk : 0 < kept c frames.length := by have := h.kept; omega
  have hlen := rank_length c ω frames w svd h.shapes ax p hp hax ranks hranks
  have hgood : ∀ f, (∀ m < nUpdates c ω frames.length, lengthAt c ω f m frames w svd ≠ 0) → _ := fun f hf =>
    basisF_good svd raises p (fun r => (ranks r).w.shape) (fun m r idx => newCol c ω f m ((ranks r).w.at' idx) (atIdx idx (ranks r).data))
      (nUpdates c ω frames.length) fun m hm => by rw [hlen f m]; exact hf m hm
  have hpts : ∃ r < p, 0 < size (ranks r).w.shape := by
    by_contra hcon
    push Not at hcon
    have h1 := slab_sum w.shape ax p hp hax (fun _ => (1 : Nat))
    have h2 : ((List.range p).map fun (r : Nat) => ∑ i ∈ Finset.range (size (w.shape.set ax (countOf (ext w.shape ax) p r))), (1 : Nat)).sum = 0 := by
      apply List.sum_eq_zero
      intro a ha
      obtain ⟨r, hr, rfl⟩ := List.mem_map.1 ha
      have hr := List.mem_range.1 hr
      have := hcon r hr
      rw [hranks r hr] at this
      simp only [slab_shape w ax p r hp hr] at this
      simpa using this
    simp only [foldr_plus, allreduce] at h1
    rw [h2] at h1
    simp at h1
    omega
  have hbad : ∀ f, (∃ m < nUpdates c ω frames.length, lengthAt c ω f m frames w svd = 0) → _ := fun f hf =>
    basisF_bad hk svd raises p (fun r => (ranks r).w.shape) (fun m r idx => newCol c ω f m ((ranks r).w.at' idx) (atIdx idx (ranks r).data))
      (nUpdates c ω frames.length) (by
        obtain ⟨m, hm, h0⟩ := hf
        exact ⟨m, hm, by rw [hlen f m]; exact h0⟩) hpts
  constructor
  · intro hall
    unfold floatFit
    simp only
    rw [if_pos ⟨hok, fun f hf => by rw [hgood f (hall f hf)]; rfl⟩]
    rfl
  · intro o ho f hf
    unfold floatFit at ho
    simp only at ho
    split at ho
    · rename_i hif
      simp only [Option.some.injEq] at ho
      subst ho
      simp only
      refine ⟨fun hg => ?_, fun hb => ?_⟩
      · rw [hgood f hg]
        have hB := rank_basis c ω frames w svd h.shapes ax p hp hax ranks hranks f (nUpdates c ω frames.length)
        refine ⟨fun j => congrArg some (congrFun hB.1 j), ?_⟩
        apply saveAll_slabs _ ax p hp (by simp only [markZero, modesOf, List.length_append]; omega) s hs
        intro r hr
        rw [hranks r hr]
        exact modesF_slab w ax p r hr hax _ _ hB.2
      · rcases hbad f hb with e | ⟨B, e, hB⟩
        · have := hif.2 f hf
          rw [e] at this
          cases this
        · rw [e]
          apply saveAll_slabs (⟨w.shape ++ [kept c frames.length], fun _ => none⟩ : Arr (Option ℂ)) ax p hp
            (by simp only [List.length_append]; omega) s hs
          intro r hr
          rw [hranks r hr]
          simp only [Option.getD_some]
          have e1 : B.U r = fun _ _ => none := funext fun i => funext fun j => hB r i j
          rw [e1]
          refine Eqv_trans (modesF_bad _) ⟨?_, fun _ _ => rfl⟩
          have hext : ext (w.shape ++ [kept c frames.length]) ax = ext w.shape ax := by
            simp [ext, List.getD_eq_getElem?_getD, List.getElem?_append_left hax]
          simp only [distributeDimension, Arr.slice, hext]
          rw [List.set_append_left _ _ hax]
    · cases ho

theorem float_ser_spec (h : StreamAccepted c frames w) (hsz : 0 < size w.shape) (ax : Nat)
    (hok : (streamFit c ω frames.length svd none ax 1 fun _ => ⟨frames, w⟩).isSome) :
    FloatSpec c ω frames w svd (floatFit c ω frames.length svd raises none ax 1 fun _ => ⟨frames, w⟩) := by
  have hk : 0 < kept c frames.length := by have := h.kept; omega
  have hgood : ∀ f, (∀ m < nUpdates c ω frames.length, lengthAt c ω f m frames w svd ≠ 0) → _ := fun f hf =>
    basisF_good svd raises 1 (fun _ => w.shape) (fun m _ idx => newCol c ω f m (w.at' idx) (atIdx idx frames))
      (nUpdates c ω frames.length) hf
  have hbad : ∀ f, (∃ m < nUpdates c ω frames.length, lengthAt c ω f m frames w svd = 0) → _ := fun f hf =>
    basisF_bad hk svd raises 1 (fun _ => w.shape) (fun m _ idx => newCol c ω f m (w.at' idx) (atIdx idx frames))
      (nUpdates c ω frames.length) hf ⟨0, by omega, hsz⟩
  constructor
  · intro hall
    unfold floatFit
    simp only
    rw [if_pos ⟨hok, fun f hf => by rw [hgood f (hall f hf)]; rfl⟩]
    rfl
  · intro o ho f hf
    unfold floatFit at ho
    simp only at ho
    split at ho
    · rename_i hif
      simp only [Option.some.injEq] at ho
      subst ho
      simp only
      refine ⟨fun hg => ?_, fun hb => ?_⟩
      · rw [hgood f hg]
        refine ⟨fun j => rfl, ?_⟩
        simp only [List.range_one, List.map_cons, List.map_nil, saveAll, Option.getD_some]
        exact npSave_congr (modesF_good w _)
      · rcases hbad f hb with e | ⟨B, e, hB⟩
        · have := hif.2 f hf
          rw [e] at this
          cases this
        · rw [e]
          simp only [List.range_one, List.map_cons, List.map_nil, saveAll, Option.getD_some]
          have e1 : B.U 0 = fun _ _ => none := funext fun i => funext fun j => hB 0 i j
          rw [e1]
          exact npSave_congr (modesF_bad w)
    · cases ho

end

/-! ### C184 -/

/-- A streaming fit, serial or on several ranks (none of which is left with a single number), in any order of the element writes: what the exact model leaves
    and what the model with numbers that are not finite leaves. -/
inductive StreamRuns (c : Cfg) (ω : ℂ) (frames : List (Arr ℝ)) (w : Arr ℝ) (svd : Svd (kept c frames.length)) (raises : Bool) :
    Option (SOut (kept c frames.length)) → Option (FOut (kept c frames.length)) → Prop
  | serial : StreamRuns c ω frames w svd raises (streamSerial c ω frames w svd) (floatStreamSerial c ω frames w svd raises)
  | parallel (p : Nat) (s : (β : Type) → List (Write β) → List (Write β)) : 0 < p → NoSingleton w p → (∀ β l, (s β l).Perm l) →
      StreamRuns c ω frames w svd raises (streamParallel c ω frames w svd p s) (floatStreamParallel c ω frames w svd raises p s)

section
variable {c : Cfg} {ω : ℂ} {frames : List (Arr ℝ)} {w : Arr ℝ} {svd : Svd (kept c frames.length)} {raises : Bool}
  {so : Option (SOut (kept c frames.length))} {fo : Option (FOut (kept c frames.length))}

theorem runs_spec (h : StreamAccepted c frames w) (hsz : 0 < size w.shape) (hr : StreamRuns c ω frames w svd raises so fo) :
    so = some (globalStream c ω frames w svd) ∧ FloatSpec c ω frames w svd fo := by
  obtain ⟨m, hm⟩ := (mean_type_accepted c.meanType).2 h.mean
  obtain ⟨ax, hax, hmax⟩ := maxAxis_ok [frames] w (by simpa using h.shapes) (by simpa using h.ne) h.space
  cases hr with
  | serial =>
    refine ⟨(h.runs ω svd).1, ?_⟩
    simp only [floatStreamSerial, hax, readRank_ok]
    have e := stream_ser_global c m hm ω frames w h.blocks h.kept svd ax h.points
    simpa [distributeDimension] using float_ser_spec c ω frames w svd raises h hsz ax (by rw [e]; rfl)
  | parallel p s hp hone hs =>
    refine ⟨(h.runs ω svd).2 p hp hone s hs, ?_⟩
    simp only [floatStreamParallel, hax]
    rw [mapM_some _ _ _ fun r _ => readRank_ok frames w ax (some (p, r))]
    simp only
    have hranks : SlabRanks frames w ax p fun r => ((List.range p).map fun r =>
        (⟨frames.map fun a => distributeDimension a ax (some (p, r)), distributeDimension w ax (some (p, r))⟩ : Rank)).getD r ⟨[], ⟨[], fun _ => 0⟩⟩ := by
      intro r hr
      simp [List.getD_eq_getElem?_getD, List.getElem?_map, List.getElem?_range hr]
    apply float_par_spec c ω frames w svd raises h hsz ax p hp hmax.1 _ hranks s hs
    rw [stream_par_global c m hm ω frames w h.shapes h.blocks h.kept svd ax hmax.1 p hp (by
      intro r hr
      rw [slab_shape w ax p r hp hr]
      exact hone ax hmax r hr) s hs _ hranks]
    rfl

/-- the blocks at frequency `f`: none is a combination of the earlier ones -/
def Independent (c : Cfg) (ω : ℂ) (frames : List (Arr ℝ)) (w : Arr ℝ) (f : Nat) : Prop :=
  ∀ m, streamStart (Stream.nPar c.nDft (sep c)) (sep c) m + c.nDft ≤ frames.length →
    specVec c ω frames w f m ∉ Submodule.span ℂ {v | ∃ m' < m, v = specVec c ω frames w f m'}

theorem col_spec (h : StreamAccepted c frames w) (f m : Nat) (hm : m < nUpdates c ω frames.length) :
    (fun i : Fin (size w.shape) => newCol c ω f m (w.at' (unravel w.shape i)) (atIdx (unravel w.shape i) frames)) = specVec c ω frames w f m := by
  funext i
  rw [newCol_spec c ω h.dft h.sep f m _ _ (by simpa [atIdx] using hm)]
  rfl

theorem length_pos (h : StreamAccepted c frames w) (hsvd : ∀ K, Stream.IsSVD K (svd K).1 (svd K).2) (f : Nat)
    (hind : Independent c ω frames w f) (m : Nat) (hm : m < nUpdates c ω frames.length) : lengthAt c ω f m frames w svd ≠ 0 := by
  have hsp := fun m => nUpdates_spec c ω h.dft h.sep frames.length m
  have key : ∀ m < nUpdates c ω frames.length, (fun i : Fin (size w.shape) => newCol c ω f m (w.at' (unravel w.shape i))
      (atIdx (unravel w.shape i) frames)) ∉ Submodule.span ℂ {v | ∃ m' < m, v = fun i : Fin (size w.shape) =>
        newCol c ω f m' (w.at' (unravel w.shape i)) (atIdx (unravel w.shape i) frames)} := by
    intro m hm
    rw [col_spec h f m hm]
    have := hind m ((hsp m).1 hm)
    convert this using 3
    ext v
    constructor
    · rintro ⟨m', h', rfl⟩; exact ⟨m', h', col_spec h f m' (by omega)⟩
    · rintro ⟨m', h', rfl⟩; exact ⟨m', h', (col_spec h f m' (by omega)).symm⟩
  have hrun := basis_run w.shape svd hsvd (fun m idx => newCol c ω f m (w.at' idx) (atIdx idx frames)) m fun m' hm' => key m' (by omega)
  unfold lengthAt newLength
  rw [abs_one]
  apply absUp_ne_zero hrun
  have := key m hm
  convert this using 3
  ext v
  simp [eq_comm]

/-- **C184**, the part that holds.  If at every frequency no block is a combination of the earlier ones and all weights are positive, every number a streaming
    fit stores is finite: the fit does not raise, and the stored eigenvalues and modes are those of the exact model, on every number of ranks. -/
theorem stream_finite_partial (h : StreamAccepted c frames w) (hsvd : ∀ K, Stream.IsSVD K (svd K).1 (svd K).2)
    (hpos : ∀ idx, InRange w.shape idx → 0 < w.at' idx) (hind : ∀ f < nFreq c.nDft c.isreal c.full, Independent c ω frames w f)
    (hsz : 0 < size w.shape) (hr : StreamRuns c ω frames w svd raises so fo) :
    ∃ out o, so = some out ∧ fo = some o ∧ ∀ f < nFreq c.nDft c.isreal c.full,
      (∀ j, o.eigs f j = some (out.eigs f j)) ∧
      ∃ A : Arr ℂ, out.modes f = npSave A ∧ o.modes f = npSave ⟨A.shape, fun idx => some (A.at' idx)⟩ := by
  obtain ⟨e, h1, h2⟩ := runs_spec h hsz hr
  have hg : ∀ f < nFreq c.nDft c.isreal c.full, ∀ m < nUpdates c ω frames.length, lengthAt c ω f m frames w svd ≠ 0 :=
    fun f hf m hm => length_pos h hsvd f (hind f hf) m hm
  obtain ⟨o, ho⟩ := Option.isSome_iff_exists.1 (h1 hg)
  refine ⟨_, o, e, ho, fun f hf => ?_⟩
  obtain ⟨e1, e2⟩ := (h2 o ho f hf).1 (hg f hf)
  refine ⟨e1, _, rfl, e2.trans ?_⟩
  apply npSave_congr
  refine ⟨rfl, fun idx hidx => ?_⟩
  obtain ⟨i, j, rfl, hi, hj⟩ := inRange_append hidx
  have := hpos i hi
  simp only [markZero, List.dropLast_concat]
  rw [if_neg (not_le.2 this)]
  rfl

/-- **C184 fails**: a block whose transform vanishes at a stored frequency (at all points of positive weight) makes the fit raise, or every number of the modes
    file of that frequency not finite: `u_p / abs_up` is 0/0 (streaming.py:181). -/
theorem stream_zero_block_fails (h : StreamAccepted c frames w) (hsz : 0 < size w.shape) (f m : Nat) (hf : f < nFreq c.nDft c.isreal c.full)
    (hm : streamStart (Stream.nPar c.nDft (sep c)) (sep c) m + c.nDft ≤ frames.length) (h0 : specVec c ω frames w f m = 0)
    (hr : StreamRuns c ω frames w svd raises so fo) :
    fo = none ∨ ∃ o, fo = some o ∧ o.modes f = npSave ⟨w.shape ++ [kept c frames.length], fun _ => none⟩ := by
  obtain ⟨-, -, h2⟩ := runs_spec h hsz hr
  cases hfo : fo with
  | none => left; rfl
  | some o =>
    right
    refine ⟨o, rfl, (h2 o hfo f hf).2 ⟨m, (nUpdates_spec c ω h.dft h.sep frames.length m).2 hm, ?_⟩⟩
    have hcol := col_spec (ω := ω) h f m ((nUpdates_spec c ω h.dft h.sep frames.length m).2 hm)
    have hx : ∀ i < size w.shape, newCol c ω f m (w.at' (unravel w.shape i)) (atIdx (unravel w.shape i) frames) = 0 := by
      intro i hi
      have := congrFun (hcol.trans h0) ⟨i, hi⟩
      exact this
    unfold lengthAt newLength
    have hp : ∀ U : Nat → List Nat → Fin (kept c frames.length) → ℂ,
        projAll 1 (fun _ => w.shape) U (fun _ idx => newCol c ω f m (w.at' idx) (atIdx idx frames)) = 0 := by
      intro U
      funext j
      simp only [projAll, List.range_one, List.map_cons, List.map_nil, allreduce, List.foldr_cons, List.foldr_nil, add_zero]
      apply Finset.sum_eq_zero
      intro i hi
      rw [hx i (Finset.mem_range.1 hi), mul_zero]
    rw [hp]
    unfold absAll
    simp only [List.range_one, List.map_cons, List.map_nil, allreduce, List.foldr_cons, List.foldr_nil, add_zero]
    rw [Finset.sum_eq_zero, Real.sqrt_zero]
    intro i hi
    simp [perpAll, hx i (Finset.mem_range.1 hi)]

/-- **C184 fails**, the case of practice: a record whose first `n_dft` snapshots are equal (a flow that starts from rest, all zero).  Its first block is zero at
    every frequency, and the fit raises or no stored mode of any frequency is finite.  (With snapshots that are zero this is so in floating point too.) -/
theorem stream_rest_fails (h : StreamAccepted c frames w) (hsz : 0 < size w.shape)
    (hrest : ∀ t < c.nDft, ∀ idx, InRange w.shape idx → (atIdx idx frames).getD t 0 = (atIdx idx frames).getD 0 0)
    (hr : StreamRuns c ω frames w svd raises so fo) :
    fo = none ∨ ∃ o, fo = some o ∧ ∀ f < nFreq c.nDft c.isreal c.full,
      o.modes f = npSave ⟨w.shape ++ [kept c frames.length], fun _ => none⟩ := by
  have hlen : c.nDft ≤ frames.length := by
    have h1 := ((feasible_iff frames.length c.nDft c.nOvlp h.overlap).1 h.blocks).2
    have := h.overlap
    omega
  have h0 : ∀ f, specVec c ω frames w f 0 = 0 := by
    intro f
    funext i
    have hi := inRange_unravel i.2
    have hs : streamStart (Stream.nPar c.nDft (sep c)) (sep c) 0 = 0 := by simp [streamStart]
    have e : ∀ t < c.nDft, (frames.map fun a => a.at' (unravel w.shape i)).getD t 0 = (frames.map fun a => a.at' (unravel w.shape i)).getD 0 0 :=
      fun t ht => hrest t ht _ hi
    have hne : (c.nDft : ℂ) ≠ 0 := by exact_mod_cast h.dft.ne'
    simp only [specVec, specBlock, hs, Nat.zero_add, Pi.zero_apply]
    rw [Finset.sum_eq_zero, mul_zero, zero_mul]
    intro t ht
    rw [Finset.sum_congr rfl fun i hi => by rw [e i (Finset.mem_range.1 hi)], e t (Finset.mem_range.1 ht)]
    simp only [Finset.sum_const, Finset.card_range, nsmul_eq_mul]
    rw [mul_div_cancel_left₀ _ hne, sub_self, mul_zero]
  cases hfo : fo with
  | none => left; rfl
  | some o =>
    right
    refine ⟨o, rfl, fun f hf => ?_⟩
    rcases stream_zero_block_fails h hsz f 0 hf (by simpa [streamStart] using hlen) (h0 f) hr with e | ⟨o', e, e'⟩
    · rw [e] at hfo; cases hfo
    · rw [e] at hfo
      cases hfo
      exact e'

/-- **C184 fails** for weights that are zero somewhere (a mask): even if all updates are fine, the modes at a point of weight zero are `u · 1/√0`, not finite. -/
theorem stream_masked_fails (h : StreamAccepted c frames w) (hsvd : ∀ K, Stream.IsSVD K (svd K).1 (svd K).2)
    (f : Nat) (hf : f < nFreq c.nDft c.isreal c.full) (hind : Independent c ω frames w f)
    (hsz : 0 < size w.shape) (hr : StreamRuns c ω frames w svd raises so fo) (o) (ho : fo = some o) :
    ∃ A : Arr (Option ℂ), o.modes f = npSave A ∧ A.shape = w.shape ++ [kept c frames.length] ∧
      ∀ idx j, (A.at' (idx ++ [j]) = none ↔ w.at' idx ≤ 0) := by
  obtain ⟨-, -, h2⟩ := runs_spec h hsz hr
  obtain ⟨-, e2⟩ := (h2 o ho f hf).1 fun m hm => length_pos h hsvd f hind m hm
  refine ⟨_, e2, rfl, fun idx j => ?_⟩
  simp [markZero]

end

/-! #### The hypotheses are met by concrete fits -/

/-- two points at rest for 4 snapshots, then moving -/
def restFrames : List (Arr ℝ) := (List.range 6).map fun (t : Nat) => ⟨[2, 1], fun i => if t < 4 then 0 else i.getD 0 0 + t⟩

theorem rest_accepted : StreamAccepted sexCfg restFrames sexWeights where
  shapes := by
    intro a ha
    simp only [restFrames, List.mem_map] at ha
    obtain ⟨t, -, rfl⟩ := ha
    rfl
  space := by simp [sexWeights]
  mean := by decide
  blocks := by
    have hlen : restFrames.length = 6 := by simp [restFrames]
    rw [hlen]; decide
  overlap := by decide
  save := by decide
  points := by decide

example (ω : ℂ) (svd : Svd (kept sexCfg restFrames.length)) (raises : Bool) :
    floatStreamSerial sexCfg ω restFrames sexWeights svd raises = none ∨ ∃ o, floatStreamSerial sexCfg ω restFrames sexWeights svd raises = some o ∧
      ∀ f < 3, o.modes f = npSave ⟨[2, 1] ++ [kept sexCfg restFrames.length], fun _ => none⟩ := by
  refine stream_rest_fails rest_accepted (by decide) ?_ StreamRuns.serial
  intro t ht idx _
  have ht : t < 4 := ht
  have : t = 0 ∨ t = 1 ∨ t = 2 ∨ t = 3 := by omega
  rcases this with rfl | rfl | rfl | rfl <;> simp [restFrames, atIdx, List.range_succ]

/-- the blocks of the record of C98 at all three frequencies, with the root of unity of 4 points -/
theorem sex_blocks (f : Nat) (hf : f < 3) : specVec sexCfg (-Complex.I) sexFrames sexWeights f 0 ⟨0, by decide⟩ ≠ 0 ∧
    specVec sexCfg (-Complex.I) sexFrames sexWeights f 0 ⟨1, by decide⟩ = 0 ∧
    specVec sexCfg (-Complex.I) sexFrames sexWeights f 1 ⟨1, by decide⟩ ≠ 0 := by
  have h0 : streamStart (Stream.nPar sexCfg.nDft (sep sexCfg)) (sep sexCfg) 0 = 0 := by decide
  have h1 : streamStart (Stream.nPar sexCfg.nDft (sep sexCfg)) (sep sexCfg) 1 = 2 := by decide
  have hs : (Real.sqrt 2 : ℂ) ≠ 0 := by
    exact_mod_cast (Real.sqrt_pos.2 (by norm_num : (0 : ℝ) < 2)).ne'
  have ew : ((winWeight sexCfg.win : ℝ) : ℂ) = 2 / 3 := by
    simp [winWeight, sexCfg]
    norm_num
  have i3 : (-Complex.I) ^ 3 = Complex.I := by
    rw [pow_succ, neg_sq, Complex.I_sq]
    ring
  have hn : nFreq sexCfg.nDft sexCfg.isreal sexCfg.full = 3 := by decide
  have : f = 0 ∨ f = 1 ∨ f = 2 := by omega
  rcases this with rfl | rfl | rfl
  · exact sex_block _
  all_goals
    refine ⟨?_, ?_, ?_⟩ <;>
      simp only [specVec, specBlock, h0, h1, ew, hn]
  all_goals
    simp [sexCfg, sexFrames, sexWeights, Finset.sum_range_succ, unravel, size, Stream.dftMat, List.range_succ]
  · rw [i3]
    intro h
    have := congrArg Complex.re h
    norm_num at this
  · rw [i3]
    intro h
    have := congrArg Complex.re h
    norm_num at this
  · norm_num
  · norm_num

theorem sex_independent (f : Nat) (hf : f < 3) : Independent sexCfg (-Complex.I) sexFrames sexWeights f := by
  obtain ⟨b0, b1, b2⟩ := sex_blocks f hf
  have hlen : sexFrames.length = 6 := by simp [sexFrames]
  intro m hm
  rw [hlen] at hm
  have hm2 : m < 2 := by
    by_contra hcon
    have h2 : streamStart (Stream.nPar sexCfg.nDft (sep sexCfg)) (sep sexCfg) 2 + sexCfg.nDft = 9 := by decide
    have := streamStart_mono (P := Stream.nPar sexCfg.nDft (sep sexCfg)) (dn := sep sexCfg) (not_lt.1 hcon)
    omega
  have : m = 0 ∨ m = 1 := by omega
  rcases this with rfl | rfl
  · intro hmem
    have e : {v : Fin (size sexWeights.shape) → ℂ | ∃ m' < 0, v = specVec sexCfg (-Complex.I) sexFrames sexWeights f m'} = ∅ := by
      ext v; simp
    rw [e, Submodule.span_empty, Submodule.mem_bot] at hmem
    exact b0 (congrFun hmem _)
  · intro hmem
    have e : {v : Fin (size sexWeights.shape) → ℂ | ∃ m' < 1, v = specVec sexCfg (-Complex.I) sexFrames sexWeights f m'} =
        {specVec sexCfg (-Complex.I) sexFrames sexWeights f 0} := by
      ext v; simp
    rw [e, Submodule.mem_span_singleton] at hmem
    obtain ⟨a, ha⟩ := hmem
    have := congrFun ha ⟨1, by decide⟩
    rw [Pi.smul_apply, b1, smul_zero] at this
    exact b2 this.symm

example : ∃ svd : Svd (kept sexCfg sexFrames.length), ∀ raises, ∃ out o, streamSerial sexCfg (-Complex.I) sexFrames sexWeights svd = some out ∧
    floatStreamSerial sexCfg (-Complex.I) sexFrames sexWeights svd raises = some o ∧ ∀ f < 3,
      (∀ j, o.eigs f j = some (out.eigs f j)) ∧
      ∃ A : Arr ℂ, out.modes f = npSave A ∧ o.modes f = npSave ⟨A.shape, fun idx => some (A.at' idx)⟩ := by
  choose g1 g2 hg using fun K : Matrix (Fin (kept sexCfg sexFrames.length) ⊕ Unit) (Fin (kept sexCfg sexFrames.length) ⊕ Unit) ℂ =>
    svd_exists K
  exact ⟨fun K => (g1 K, g2 K), fun raises => stream_finite_partial sex_accepted hg (fun idx _ => by simp only [sexWeights]; positivity)
    (fun f hf => sex_independent f hf) (by decide) StreamRuns.serial⟩

end Verif.Props
