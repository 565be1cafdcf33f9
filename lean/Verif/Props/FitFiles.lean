import Verif.Model.FitFiles
import Verif.Props.FitFormula
import Verif.Props.Disk2
import Verif.Props.Reader3
/-
  C89-C91: fits of NetCDF and MATLAB files, end to end, against the serial fit of the same snapshots given as arrays.
-/
set_option linter.unusedSimpArgs false
set_option linter.unusedSectionVars false
namespace Verif.Props
open Verif Verif.Par Verif.Rd Verif.Spod Verif.Fit Matrix

/-! ### Reshaping -/

theorem unravel_concat (sh : List Nat) (n k : Nat) (hk : k < size sh * n) :
    unravel (sh ++ [n]) k = unravel sh (k / n) ++ [k % n] := by
  have hn : 0 < n := by
    rcases Nat.eq_zero_or_pos n with h | h
    · subst h; simp at hk
    · exact h
  have h1 : k / n < size sh := by
    rw [Nat.div_lt_iff_lt_mul hn]; exact hk
  have hin := inRange_unravel h1
  have hin2 : InRange (sh ++ [n]) (unravel sh (k / n) ++ [k % n]) := inRange_snoc hin (Nat.mod_lt _ hn)
  have hr : ravel (sh ++ [n]) (unravel sh (k / n) ++ [k % n]) = k := by
    have : ∀ (sh x : List Nat) (j : Nat), InRange sh x → ravel (sh ++ [n]) (x ++ [j]) = ravel sh x * n + j := by
      intro sh
      induction sh with
      | nil => intro x j h; cases x with
        | nil => simp [ravel, size]
        | cons _ _ => simp [InRange] at h
      | cons a sh ih => intro x j h; cases x with
        | nil => simp [InRange] at h
        | cons b x =>
          simp only [List.cons_append, ravel]
          rw [ih x j h.2]
          have : size (sh ++ [n]) = size sh * n := by
            clear ih h hin2 hin h1 hk
            induction sh with
            | nil => simp [size]
            | cons a sh ih => simp [size, ih, Nat.mul_assoc]
          rw [this, Nat.add_mul, Nat.mul_assoc, Nat.add_assoc]
    rw [this sh _ _ hin, ravel_unravel h1, Nat.mul_comm]
    exact Nat.div_add_mod k n
  conv_lhs => rw [← hr]
  exact unravel_ravel hin2

theorem size_snoc (l : List Nat) (n : Nat) : size (l ++ [n]) = size l * n := by
  induction l with
  | nil => simp [size]
  | cons a l ih => simp [size, ih, Nat.mul_assoc]

theorem npSave_reshape {α} (a : Arr α) (sh : List Nat) (h : size sh = size a.shape) :
    (npSave (reshapeTo sh a)).data = (npSave a).data := by
  funext k
  simp only [npSave, reshapeTo, h]
  by_cases hk : k < size a.shape
  · rw [if_pos hk, if_pos hk, ravel_unravel (by rw [h]; exact hk)]
  · rw [if_neg hk, if_neg hk]

theorem reshape_at {α} (a : Arr α) (sh : List Nat) (k : Nat) (hk : k < size sh) :
    (reshapeTo sh a).at' (unravel sh k) = a.at' (unravel a.shape k) := by
  simp only [reshapeTo, ravel_unravel hk]

theorem crossSpectral_cast {nb n n' : Nat} (h : n = n') (Q : Matrix (Fin n) (Fin nb) ℂ) (Q' : Matrix (Fin n') (Fin nb) ℂ)
    (w : Fin n → ℝ) (w' : Fin n' → ℝ) (hQ : ∀ k b, Q k b = Q' (Fin.cast h k) b) (hw : ∀ k, w k = w' (Fin.cast h k)) :
    crossSpectral Q w = crossSpectral Q' w' := by
  subst h
  have e1 : Q = Q' := by ext k b; exact hQ k b
  have e2 : w = w' := by funext k; exact hw k
  rw [e1, e2]

theorem spodFreq_cast {nb n n' : Nat} (h : n = n') (Q : Matrix (Fin n) (Fin nb) ℂ) (Q' : Matrix (Fin n') (Fin nb) ℂ)
    (hQ : ∀ k b, Q k b = Q' (Fin.cast h k) b) (L0 : Fin nb → ℂ) (V0 : Matrix (Fin nb) (Fin nb) ℂ)
    (σ : Equiv.Perm (Fin nb)) (fac : Nat) :
    (spodFreq Q L0 V0 σ fac).1 = (spodFreq Q' L0 V0 σ fac).1 ∧
    ∀ k b, (spodFreq Q L0 V0 σ fac).2 k b = (spodFreq Q' L0 V0 σ fac).2 (Fin.cast h k) b := by
  subst h
  have e1 : Q = Q' := by ext k b; exact hQ k b
  rw [e1]
  exact ⟨rfl, fun _ _ => rfl⟩

theorem atIdx_reshape (frames : List (Arr ℝ)) (sh sh0 : List Nat) (hsh : ∀ a ∈ frames, a.shape = sh0) (k : Nat)
    (hk : k < size sh) : atIdx (unravel sh k) (frames.map (reshapeTo sh)) = atIdx (unravel sh0 k) frames := by
  simp only [atIdx, List.map_map]
  apply List.map_congr_left
  intro a ha
  simp only [Function.comp_apply, reshape_at a sh k hk, hsh a ha]

/-- Flattening snapshots and weights changes neither the eigenvalues nor the flat content of any file. -/
theorem global_flatten (c : Cfg) (ω : ℂ) (frames : List (Arr ℝ)) (w : Arr ℝ) (sh : List Nat) {nt : Nat}
    (hsz : size sh = size w.shape) (hsh : ∀ a ∈ frames, a.shape = w.shape) (solver : Solver (fitNb c nt)) :
    (globalOut c ω (frames.map (reshapeTo sh)) (reshapeTo sh w) solver).eigs = (globalOut c ω frames w solver).eigs ∧
    (∀ f k (b : Nat), k < size sh → b < fitNb c nt →
      (globalPhi c ω (frames.map (reshapeTo sh)) (reshapeTo sh w) solver f).at' (unravel sh k ++ [b]) =
      (globalPhi c ω frames w solver f).at' (unravel w.shape k ++ [b])) ∧
    (npSave (reshapeTo sh w)).data = (npSave w).data ∧
    (npSave (globalLtm c nt (frames.map (reshapeTo sh)) (reshapeTo sh w))).data =
      (npSave (globalLtm c nt frames w)).data := by
  have hQ : ∀ f (k : Fin (size sh)) (b : Fin (fitNb c nt)),
      rowsOf sh (globalHat c ω (frames.map (reshapeTo sh)) sh f) k b =
      rowsOf w.shape (globalHat c ω frames w.shape f) (Fin.cast hsz k) b := by
    intro f k b
    simp only [rowsOf, Matrix.of_apply, globalHat, Fin.val_cast]
    rw [atIdx_reshape frames sh w.shape hsh k k.2]
  have hW : ∀ k : Fin (size sh), specW (reshapeTo sh w) k = specW w (Fin.cast hsz k) := by
    intro k
    exact reshape_at w sh k k.2
  have hM : ∀ f, crossSpectral (nb := fitNb c nt) (rowsOf (reshapeTo sh w).shape
      (globalHat c ω (frames.map (reshapeTo sh)) (reshapeTo sh w).shape f))
      (specW (reshapeTo sh w)) = crossSpectral (rowsOf w.shape (globalHat c ω frames w.shape f)) (specW w) :=
    fun f => crossSpectral_cast hsz _ _ _ _ (hQ f) hW
  have hR : (reshapeTo sh w).shape = sh := rfl
  refine ⟨?_, ?_, npSave_reshape w sh hsz, ?_⟩
  · funext f
    simp only [globalOut]
    rw [hM f]
    exact (spodFreq_cast hsz _ _ (hQ f) _ _ _ _).1
  · intro f k b hk hb
    simp only [globalPhi]
    rw [hM f]
    have h1 := inRange_unravel hk
    have h2 := inRange_unravel (show k < size w.shape by rw [← hsz]; exact hk)
    have e1 : (reshapeTo sh w).shape = sh := rfl
    rw [phiArr_at _ _ _ _ b (by exact h1) hb, phiArr_at _ _ _ _ b h2 hb]
    refine ((spodFreq_cast hsz _ _ (hQ f) _ _ _ _).2 _ _).trans ?_
    refine congrFun (congrArg _ (Fin.ext ?_)) _
    show ravel sh (unravel sh k) = ravel w.shape (unravel w.shape k)
    rw [ravel_unravel hk, ravel_unravel (show k < size w.shape by rw [← hsz]; exact hk)]
  · have e : (globalLtm c nt (frames.map (reshapeTo sh)) (reshapeTo sh w)).Eqv
        (reshapeTo sh (globalLtm c nt frames w)) := by
      refine ⟨rfl, fun idx hidx => ?_⟩
      obtain ⟨k, hk, rfl⟩ : ∃ k, k < size sh ∧ idx = unravel sh k :=
        ⟨ravel sh idx, ravel_lt hidx, (unravel_ravel hidx).symm⟩
      rw [reshape_at _ _ _ hk]
      simp only [globalLtm]
      rw [atIdx_reshape frames sh w.shape hsh k hk]
    rw [npSave_congr e]
    exact npSave_reshape _ _ hsz

/-! ### Redistribution -/

/-- slab of rank `r` of a flattened snapshot -/
noncomputable def flatSlab (nx nv p r : Nat) (a : Arr ℝ) : Arr ℝ :=
  ⟨[(blockdist nx p r).1, nv], slabEntry a (blockdist nx p r).1 (blockdist nx p r).2 nv⟩

theorem redistGet_eq (inputs : Nat → Nat → Nat → List (Arr ℝ)) (frames : List (Arr ℝ)) (nx nv p r : Nat) (hr : r < p)
    (hin : ∀ s e, s ≤ e → e ≤ frames.length → ∀ q < p, inputs s e q =
      pslice frames (s + startOf (e - s) p q) (s + startOf (e - s) p q + countOf (e - s) p q))
    (arrive : Nat → Nat → List (Write ℝ) → List (Write ℝ)) (harr : ∀ a b l, (arrive a b l).Perm l) (s e : Nat)
    (hse : s ≤ e) (he : e ≤ frames.length) :
    redistGet inputs nx nv p r arrive s e = pslice (frames.map (flatSlab nx nv p r)) s e := by
  have h2 := redistribute_gen frames p p s e nx nv r (by omega) le_rfl hr hse he
  have hmsg : ((List.range p).map fun q => message nx p (stack nx nv (inputs s e q)) r) =
      (List.range p).map fun q => message nx p (stack nx nv (pslice frames (s + startOf (e - s) p q)
        (s + startOf (e - s) p q + countOf (e - s) p q))) r := by
    apply List.map_congr_left
    intro q hq
    rw [hin s e hse he q (List.mem_range.1 hq)]
  have h3 := h2 _ (harr s e _)
  simp only [redistGet]
  rw [hmsg]
  apply List.ext_getElem?
  intro t
  rw [List.getElem?_map]
  by_cases ht : t < e - s
  · rw [List.getElem?_range ht]
    simp only [Option.map_some]
    have hlt : s + t < frames.length := by omega
    have hs2 : (pslice (frames.map (flatSlab nx nv p r)) s e)[t]? = some (flatSlab nx nv p r frames[s + t]) := by
      simp [pslice, List.getElem?_take, ht, List.getElem?_drop, hlt]
    rw [hs2]
    simp only [flatSlab, Option.some.injEq, Arr.mk.injEq, true_and]
    funext idx
    match idx with
    | [] => rfl
    | [_] => rfl
    | _ :: _ :: _ :: _ => rfl
    | [x, v] =>
      simp only [bufEntry, slabEntry]
      by_cases hxv : x < (blockdist nx p r).1 ∧ v < nv
      · rw [if_pos hxv, if_pos hxv]
        obtain ⟨snap, ha, hb⟩ := h3 t x v ht hxv.1 hxv.2
        rw [hb]
        rw [List.getElem?_eq_getElem hlt] at ha
        simp only [Option.some.injEq] at ha
        simp [ha]
      · rw [if_neg hxv, if_neg hxv]
  · rw [List.getElem?_eq_none (by simpa using ht), List.getElem?_eq_none (by rw [pslice_length]; omega)]
    rfl

/-! ### Columns of the modes -/

theorem colOf_congr {a b : Arr ℂ} (m ns : Nat) (hm : m < ns) (sh : List Nat) (hsh : a.shape = sh ++ [ns]) (h : a.Eqv b) :
    colOf m a = colOf m b := by
  have hb : b.shape = sh ++ [ns] := by rw [← h.1, hsh]
  simp only [colOf, hsh, hb, List.dropLast_concat]
  apply List.map_congr_left
  intro k hk
  apply h.2
  rw [hsh]
  exact inRange_snoc (inRange_unravel (List.mem_range.1 hk)) hm

theorem colOf_slabs (G : Arr ℂ) (nx nv ns m p : Nat) (hp : 0 < p) (hG : G.shape = [nx, nv] ++ [ns]) (hnv : 0 < nv) :
    ((List.range p).map fun r => colOf m (distributeDimension G 0 (some (p, r)))).flatten = colOf m G := by
  have hlen : (colOf m G).length = nx * nv := by
    simp [colOf, hG, size]
  have hstep : ∀ r < p, colOf m (distributeDimension G 0 (some (p, r))) =
      ((colOf m G).drop (startOf nx p r * nv)).take (countOf nx p r * nv) := by
    intro r hr
    have hle : startOf nx p r + countOf nx p r ≤ nx := by
      have h := bound_succ nx p r hr
      have h' : bound nx p (r + 1) ≤ nx := by
        unfold bound
        split
        · have := blockdist_end nx p (p - 1) (by omega) (by omega)
          have := startOf_mono nx p (show r + 1 ≤ p - 1 by omega) (by omega)
          omega
        · omega
      omega
    have he0 : ext G.shape 0 = nx := by rw [hG]; rfl
    have hshape : (distributeDimension G 0 (some (p, r))).shape = [countOf nx p r, nv] ++ [ns] := by
      simp only [distributeDimension, Arr.slice, he0]
      rw [hG]
      simp only [List.cons_append, List.nil_append, List.set_cons_zero, List.cons.injEq, and_true]
      simp only [startOf, countOf] at hle ⊢
      omega
    have hmul : (startOf nx p r + countOf nx p r) * nv ≤ nx * nv := Nat.mul_le_mul_right _ hle
    rw [Nat.add_mul] at hmul
    apply List.ext_getElem?
    intro k
    simp only [colOf, hshape, hG, List.dropLast_concat]
    rw [List.getElem?_map, List.getElem?_take]
    have hs1 : size [countOf nx p r, nv] = countOf nx p r * nv := by simp [size]
    by_cases hk : k < countOf nx p r * nv
    · rw [if_pos hk, List.getElem?_range (by rw [hs1]; exact hk), List.getElem?_drop, List.getElem?_map,
        List.getElem?_range (by simp only [size, Nat.mul_one]; omega)]
      simp only [Option.map_some, Option.some.injEq]
      simp only [distributeDimension, Arr.slice, he0]
      have e : ((unravel [countOf nx p r, nv] k ++ [m]).set 0
          ((unravel [countOf nx p r, nv] k ++ [m]).getD 0 0 + (blockdist nx p r).2)) =
          unravel [nx, nv] (startOf nx p r * nv + k) ++ [m] := by
        simp only [unravel, size, Nat.mul_one, List.cons_append, List.nil_append, List.set_cons_zero,
          List.getD_cons_zero, List.cons.injEq, and_true, Nat.div_one, Nat.mod_one]
        constructor
        · rw [Nat.mul_comm (startOf nx p r), Nat.mul_add_div hnv, startOf, Nat.add_comm]
        · rw [Nat.mul_comm (startOf nx p r), Nat.mul_add_mod]
      rw [e]
    · rw [if_neg hk, List.getElem?_eq_none (by simp only [List.length_range, hs1]; omega)]
      rfl
  have hpre : ∀ q, q ≤ p → ((List.range q).map fun r => colOf m (distributeDimension G 0 (some (p, r)))).flatten =
      (colOf m G).take (bound nx p q * nv) := by
    intro q
    induction q with
    | zero =>
      intro _
      have : bound nx p 0 = 0 := by simp [bound, hp, blockdist_zero]
      simp [this]
    | succ q ih =>
      intro hq
      rw [List.range_succ, List.map_append, List.flatten_append, ih (by omega)]
      simp only [List.map_cons, List.map_nil, List.flatten_cons, List.flatten_nil, List.append_nil]
      rw [hstep q (by omega), bound_succ nx p q (by omega), Nat.add_mul]
      have hbq : bound nx p q = startOf nx p q := by simp [bound, show q < p by omega]
      rw [hbq, List.take_add]
  rw [hpre p le_rfl]
  have : bound nx p p = nx := by simp [bound]
  rw [this, List.take_of_length_le (by omega)]

/-! ### Flattened fits -/

theorem fitRanks_congr (c : Cfg) (ω : ℂ) (nt : Nat) (solver : Solver (fitNb c nt)) (p : Nat)
    (f g : Nat → Src) (w : Nat → Arr ℝ)
    (H : ∀ r < p, rankState c ω nt (f r, w r) = rankState c ω nt (g r, w r)) :
    fitRanks c ω nt solver ((List.range p).map fun r => (f r, w r)) =
      fitRanks c ω nt solver ((List.range p).map fun r => (g r, w r)) := by
  unfold fitRanks
  rw [mapM_congr' (List.range p) (fun r => (f r, w r)) (fun r => (g r, w r)) _ fun r hr => H r (List.mem_range.1 hr)]

theorem fitRanks_par_nt (c : Cfg) (m : MeanType) (hm : parseMean c.meanType = .ok m) (ω : ℂ)
    (frames : List (Arr ℝ)) (nt : Nat) (hnt : frames.length = nt) (w : Arr ℝ) (loc : Nat → List (Arr ℝ))
    (hfeas : feasible c.nDft (nBlocks nt c.nDft c.nOvlp) = .ok ())
    (solver : Solver (fitNb c nt)) (ax : Nat) (hax : ax < w.shape.length) (p : Nat) (hp : 0 < p)
    (hloc : ∀ r < p, HasSlab (loc r) frames w ax p r)
    (hone : ∀ r < p, size (distributeDimension w ax (some (p, r))).shape ≠ 1) :
    ∃ (g : Nat → Nat → Arr ℂ) (l : Nat → Arr ℝ),
      fitRanks c ω nt solver ((List.range p).map fun r =>
        (.arr (loc r), distributeDimension w ax (some (p, r)))) =
        some ((globalOut c ω frames w solver).eigs, fun f => (List.range p).map (g f), (List.range p).map l) ∧
      (∀ f, ∀ r < p, (g f r).Eqv (distributeDimension (globalPhi c ω frames w solver f) ax (some (p, r)))) ∧
      ∀ r < p, (l r).Eqv (distributeDimension (globalLtm c nt frames w) ax (some (p, r))) := by
  subst hnt
  exact fitRanks_par c m hm ω frames w loc hfeas solver ax hax p hp hloc hone

/-- The results of a fit of flattened data (`flat`) are those of a serial fit of the same snapshots as arrays of shape
    `xs ++ [nv]` (`out`): same eigenvalues; same weights and mean, in C order (the files of the flattened fit have shape
    `[nx, nv]`); for each of the `nf` frequencies and `ns` modes one file of shape `xs ++ [nv]` whose entries are those
    of the serial file of that frequency; no other mode files. -/
structure SameFiles (xs : List Nat) (nv nf ns : Nat) {nb nb' : Nat} (flat : OutFlat nb) (out : Out nb') : Prop where
  blocks : nb = nb'
  eigs : ∀ f k (h : k < nb) (h' : k < nb'), flat.eigs f ⟨k, h⟩ = out.eigs f ⟨k, h'⟩
  weights : flat.weights.shape = [size xs, nv] ∧ flat.weights.data = out.weights.data
  ltm : flat.ltm.shape = [size xs, nv] ∧ flat.ltm.data = out.ltm.data
  modes : ∀ f m, f < nf → m < ns → ∃ F, flat.modes f m = some F ∧ F.shape = xs ++ [nv] ∧
    ∀ x, InRange (xs ++ [nv]) x →
      (fileEntry F x).isSome ∧ fileEntry F x = fileEntry (out.modes f) (x ++ [m])
  none_else : ∀ f m, ¬ (f < nf ∧ m < ns) → flat.modes f m = none

theorem saveReshaped_ok (sh : List Nat) (l : List ℂ) (h : l.length = size sh) :
    saveReshaped sh l = some ⟨sh, fun k => l[k]?⟩ := if_pos h

theorem dist0_shape (A : Arr ℝ) (nx nv p r : Nat) (hA : A.shape = [nx, nv]) (hr : r < p) :
    (distributeDimension A 0 (some (p, r))).shape = [(blockdist nx p r).1, nv] := by
  have hext' : ext [nx, nv] 0 = nx := rfl
  simp only [distributeDimension, Arr.slice, hA, hext', List.set_cons_zero, List.cons.injEq, and_true]
  have h := bound_succ nx p r hr
  have h' : bound nx p (r + 1) ≤ nx := by
    unfold bound
    split
    · have := blockdist_end nx p (p - 1) (by omega) (by omega)
      have := startOf_mono nx p (show r + 1 ≤ p - 1 by omega) (by omega)
      omega
    · omega
  simp only [startOf, countOf] at h
  omega

/-- Any reader that gives each rank its slab of the flattened snapshots, in pieces. -/
theorem flat_fit_global (c : Cfg) (ω : ℂ) (frames : List (Arr ℝ)) (nt : Nat) (hnt : frames.length = nt) (w : Arr ℝ)
    (xs : List Nat) (nv : Nat)
    (hw : w.shape = xs ++ [nv]) (hsh : ∀ a ∈ frames, a.shape = w.shape)
    (m : MeanType) (hm : parseMean c.meanType = .ok m)
    (hfeas : feasible c.nDft (nBlocks nt c.nDft c.nOvlp) = .ok ())
    (hov : c.nOvlp ≤ (c.nDft : Int) - 1)
    (solver : Solver (fitNb c nt)) (hnv : 0 < nv)
    (p : Nat) (hp : 0 < p) (hone : ∀ r < p, (blockdist (size xs) p r).1 * nv ≠ 1)
    (get : Nat → Nat → Nat → List (Arr ℝ))
    (hget : ∀ r < p, ∀ s e, s ≤ e → e ≤ nt →
      get r s e = pslice ((frames.map (reshapeTo [size xs, nv])).map (flatSlab (size xs) nv p r)) s e)
    (nchunks nblks : Nat) (hc : 0 < nchunks) (hk : 0 < nblks) (hlen : nchunks * nblks ≤ nt)
    (s : (β : Type) → List (Write β) → List (Write β)) (hs : ∀ β l, (s β l).Perm l) :
    ∃ flat,
      fitFlat c ω nt solver s xs nv ((List.range p).map fun r =>
        (.dict (dictPieces (get r) nt nchunks nblks),
          distributeDimension (reshapeTo [size xs, nv] w) 0 (some (p, r)))) = some flat ∧
      SameFiles xs nv (nFreq c.nDft c.isreal c.full) (min c.nSave (fitNb c nt)) flat
        (globalOut c ω frames w solver) := by
  set F' := frames.map (reshapeTo [size xs, nv]) with hF'
  set w' := reshapeTo [size xs, nv] w with hw'
  have hszw : size [size xs, nv] = size w.shape := by rw [hw, size_snoc]; simp [size]
  have hnb := (feasible_nb c _ hfeas).1
  let loc : Nat → List (Arr ℝ) := fun r => F'.map (flatSlab (size xs) nv p r)
  have hF'l : F'.length = nt := (List.length_map _).trans hnt
  have hlocl : ∀ r, (loc r).length = nt := fun r => (List.length_map _).trans hF'l
  have hstate : ∀ r < p, rankState c ω nt
      (.dict (dictPieces (get r) nt nchunks nblks), distributeDimension w' 0 (some (p, r))) =
      rankState c ω nt (.arr (loc r), distributeDimension w' 0 (some (p, r))) := by
    intro r hr
    have h := rankState_dict c ω (loc r) (get r) (fun s e h1 h2 => hget r hr s e h1 (by rw [hlocl] at h2; exact h2))
      nchunks nblks hc hk (by rw [hlocl]; exact hlen) hov
      (by rw [hlocl]; exact Nat.lt_of_lt_of_le (by omega) hnb) (distributeDimension w' 0 (some (p, r)))
    rw [hlocl] at h
    exact h
  have hshape : ∀ r < p, (distributeDimension w' 0 (some (p, r))).shape = [(blockdist (size xs) p r).1, nv] :=
    fun r hr => dist0_shape w' (size xs) nv p r rfl hr
  have hslab : ∀ r < p, HasSlab (loc r) F' w' 0 p r := by
    intro r hr
    refine ⟨(hlocl r).trans hF'l.symm, fun idx hidx => ?_⟩
    rw [hshape r hr] at hidx
    have hext : ext w'.shape 0 = size xs := rfl
    match idx, hidx with
    | [x, v], ⟨hx, hv, _⟩ =>
      simp only [atIdx, loc, List.map_map, List.getD_cons_zero, List.set_cons_zero, hext]
      apply List.map_congr_left
      intro a _
      simp only [Function.comp_apply, flatSlab, slabEntry, hx, hv, and_self, ↓reduceIte, startOf]
      rw [Nat.add_comm]
  obtain ⟨g, l, h1, h2, h3⟩ := fitRanks_par_nt c m hm ω F' nt hF'l w' loc hfeas solver 0 (by simp [hw', reshapeTo]) p hp
    hslab (fun r hr => by rw [hshape r hr]; simpa [size] using hone r hr)
  have hranks := (fitRanks_congr c ω nt solver p (fun r => .dict (dictPieces (get r) nt nchunks nblks))
    (fun r => .arr (loc r)) (fun r => distributeDimension w' 0 (some (p, r))) hstate).trans h1
  obtain ⟨ge, gp, gw, gl⟩ := global_flatten c ω frames w [size xs, nv] hszw hsh solver
  have hns : ∀ f, (globalPhi c ω F' w' solver f).shape = [size xs, nv] ++ [min c.nSave (fitNb c nt)] := fun f => rfl
  refine ⟨_, by rw [fitFlat, hranks], ?_⟩
  constructor
  · rfl
  · intro f k h _
    exact congrFun (congrFun ge f) ⟨k, h⟩
  · have e : saveAll (some s) 0 (((List.range p).map fun r =>
        ((.dict (dictPieces (get r) nt nchunks nblks), distributeDimension w' 0 (some (p, r))) : Src × Arr ℝ)).map (·.2)) =
        npSave w' := by
      rw [List.map_map]
      exact saveAll_slabs w' 0 p hp (by simp [hw', reshapeTo]) s hs _ fun r _ => Arr.Eqv.refl _
    simp only [e]
    exact ⟨rfl, gw⟩
  · have e : saveAll (some s) 0 ((List.range p).map l) = npSave (globalLtm c nt F' w') :=
      saveAll_slabs (globalLtm c nt F' w') 0 p hp (by simp [globalLtm, hw', reshapeTo]) s hs _ h3
    simp only [e]
    exact ⟨rfl, gl⟩
  · intro f j hf hj
    have hmem : (f, j) ∈ (List.range p).flatMap fun r =>
        Disk2.saves (Disk2.prog p (nFreq c.nDft c.isreal c.full) (min c.nSave (fitNb c nt)) r) := by
      rw [← List.count_pos_iff, disk2_saved_exactly_once p _ _ hp, if_pos ⟨hf, hj⟩]
      exact Nat.one_pos
    have hcols : ((List.range p).map (g f)).map (colOf j) =
        (List.range p).map fun r => colOf j (distributeDimension (globalPhi c ω F' w' solver f) 0 (some (p, r))) := by
      rw [List.map_map]
      apply List.map_congr_left
      intro r hr
      have hr := List.mem_range.1 hr
      refine colOf_congr j (min c.nSave (fitNb c nt)) hj ([size xs, nv].set 0 (min ((blockdist (size xs) p r).2 +
        (blockdist (size xs) p r).1) (size xs) - (blockdist (size xs) p r).2)) ?_ (h2 f r hr)
      rw [(h2 f r hr).1]
      rfl
    have hflat := colOf_slabs (globalPhi c ω F' w' solver f) (size xs) nv _ j p hp (hns f) hnv
    have hlenc : (colOf j (globalPhi c ω F' w' solver f)).length = size (xs ++ [nv]) := by
      simp [colOf, hns, size, size_snoc]
    have hln : (List.map (fun r => ((Src.dict (dictPieces (get r) nt nchunks nblks),
        distributeDimension w' 0 (some (p, r))) : Src × Arr ℝ)) (List.range p)).length = p := by simp
    refine ⟨⟨xs ++ [nv], fun k => (colOf j (globalPhi c ω F' w' solver f))[k]?⟩, ?_, rfl, ?_⟩
    · simp only [hln]
      rw [if_pos hmem, disk2_file_content, hcols, hflat]
      exact saveReshaped_ok _ _ hlenc
    · intro x hx
      have hxlt := ravel_lt hx
      have hxs : ravel (xs ++ [nv]) x < size [size xs, nv] := by
        rw [hszw, hw]; exact hxlt
      have e1 : fileEntry (⟨xs ++ [nv], fun k => (colOf j (globalPhi c ω F' w' solver f))[k]?⟩ : NpyFile ℂ) x =
          some ((globalPhi c ω frames w solver f).at' (x ++ [j])) := by
        simp only [fileEntry, colOf, hns, List.dropLast_concat]
        rw [List.getElem?_map, List.getElem?_range hxs]
        simp only [Option.map_some, Option.some.injEq]
        rw [gp f _ j hxs (by omega), hw, unravel_ravel hx]
      refine ⟨by rw [e1]; rfl, ?_⟩
      rw [e1]
      refine (fileEntry_npSave (globalPhi c ω frames w solver f) (x ++ [j]) ?_).symm
      exact inRange_snoc (by rw [hw]; exact hx) hj
  · intro f j hfj
    have hmem : (f, j) ∉ (List.range p).flatMap fun r =>
        Disk2.saves (Disk2.prog p (nFreq c.nDft c.isreal c.full) (min c.nSave (fitNb c nt)) r) := by
      rw [← List.count_eq_zero, disk2_saved_exactly_once p _ _ hp, if_neg hfj]
    have hln : (List.map (fun r => ((Src.dict (dictPieces (get r) nt nchunks nblks),
        distributeDimension w' 0 (some (p, r))) : Src × Arr ℝ)) (List.range p)).length = p := by simp
    simp only [hln]
    rw [if_neg hmem]

theorem SameFiles.cast {xs : List Nat} {nv nf ns : Nat} (c : Cfg) (ω : ℂ) (frames : List (Arr ℝ)) (w : Arr ℝ)
    (solver : ∀ nb, Solver nb) {nt nt' : Nat} (h : nt = nt') {flat : OutFlat (fitNb c nt)}
    (hs : SameFiles xs nv nf ns flat (globalOut c ω frames w (solver (fitNb c nt)))) :
    SameFiles xs nv nf ns flat (globalOut c ω frames w (solver (fitNb c nt'))) := by
  subst h
  exact hs

/-! ### Too many pieces -/

theorem mapM_none {α β} (l : List α) (f : α → Option β) (a : α) (ha : a ∈ l) (h : f a = none) : l.mapM f = none := by
  induction l with
  | nil => simp at ha
  | cons b l ih =>
    rw [List.mapM_cons]
    rcases List.mem_cons.1 ha with rfl | h1
    · rw [h]; rfl
    · rw [ih h1]
      cases f b <;> rfl

/-- With more pieces than snapshots the last piece is empty and the fit raises (base.py:596 `last_val[0,...]`). -/
theorem flat_fit_none (c : Cfg) (ω : ℂ) (nt : Nat) (solver : Solver (fitNb c nt)) (p : Nat) (hp : 0 < p)
    (get : Nat → Nat → Nat → List (Arr ℝ)) (w : Nat → Arr ℝ) (nchunks nblks : Nat) (hc : 0 < nchunks) (hk : 0 < nblks)
    (hlen : nt < nchunks * nblks) (xs : List Nat) (nv : Nat) (s : (β : Type) → List (Write β) → List (Write β)) :
    fitFlat c ω nt solver s xs nv ((List.range p).map fun r =>
      (.dict (dictPieces (get r) nt nchunks nblks), w r)) = none := by
  have hst : ∀ r, rankState c ω nt (.dict (dictPieces (get r) nt nchunks nblks), w r) = none := by
    intro r
    have hmean : ∀ nb, srcMean nb nt (.dict (dictPieces (get r) nt nchunks nblks)) = none := by
      intro nb
      obtain ⟨c', rfl⟩ : ∃ c, nchunks = c + 1 := ⟨nchunks - 1, by omega⟩
      obtain ⟨b, rfl⟩ : ∃ b, nblks = b + 1 := ⟨nblks - 1, by omega⟩
      simp only [srcMean, dictPieces_getLast]
      rw [if_pos]
      rw [pslice_length, countOf_last, countOf_last, Nat.div_div_eq_div_mul, Nat.div_eq_of_lt hlen]
      omega
    simp only [rankState, rankHats, hmean]
  have hm : ((List.range p).map fun r => ((.dict (dictPieces (get r) nt nchunks nblks), w r) : Src × Arr ℝ)).mapM
      (rankState c ω nt) = none :=
    mapM_none _ _ (.dict (dictPieces (get 0) nt nchunks nblks), w 0)
      (List.mem_map.2 ⟨0, List.mem_range.2 hp, rfl⟩) (hst 0)
  have hf : fitRanks c ω nt solver ((List.range p).map fun r =>
      ((.dict (dictPieces (get r) nt nchunks nblks), w r) : Src × Arr ℝ)) = none := by
    unfold fitRanks
    rw [hm]
    cases feasible c.nDft (nBlocks nt c.nDft c.nOvlp) <;> cases parseMean c.meanType <;> rfl
  simp only [fitFlat, hf]

/-! ### NetCDF -/

/-- The variables of a snapshot as one array, variable last: `np.stack(vars, axis=-1)`; variables that were not given
    are zero. -/
noncomputable def stackVars (xs : List Nat) (nv : Nat) (vars : List (Arr ℝ)) : Arr ℝ :=
  ⟨xs ++ [nv], fun idx => match vars[idx.getLastD 0]? with
    | some a => a.at' idx.dropLast
    | none => 0⟩

/-- The content of the files as array datasets, one per file. -/
noncomputable def ncArrays (xs : List Nat) (nv : Nat) (names : List String) (raw : String → NcFile (List (Arr ℝ))) :
    List (List (Arr ℝ)) := names.map fun f => (raw f).snaps.map (stackVars xs nv)

theorem ncArrays_length (xs : List Nat) (nv : Nat) (names : List String) (raw : String → NcFile (List (Arr ℝ))) :
    (ncArrays xs nv names raw).flatten.length = rawNt names raw := by
  simp [ncArrays, rawNt, List.length_flatten, Function.comp_def]

theorem flatSlab_congr (nx nv p r : Nat) (hr : r < p) (a b : Arr ℝ)
    (h : ∀ x v, x < nx → v < nv → a.at' [x, v] = b.at' [x, v]) : flatSlab nx nv p r a = flatSlab nx nv p r b := by
  simp only [flatSlab, Arr.mk.injEq, true_and]
  funext idx
  match idx with
  | [] => rfl
  | [_] => rfl
  | _ :: _ :: _ :: _ => rfl
  | [x, v] =>
    simp only [slabEntry]
    by_cases hxv : x < (blockdist nx p r).1 ∧ v < nv
    · rw [if_pos hxv, if_pos hxv]
      apply h _ _ _ hxv.2
      have h1 := bound_succ nx p r hr
      have h' : bound nx p (r + 1) ≤ nx := by
        unfold bound
        split
        · have := blockdist_end nx p (p - 1) (by omega) (by omega)
          have := startOf_mono nx p (show r + 1 ≤ p - 1 by omega) (by omega)
          omega
        · omega
      simp only [startOf, countOf] at h1
      omega
    · rw [if_neg hxv, if_neg hxv]

theorem unravel_two (xs : List Nat) (nv x v : Nat) (hx : x < size xs) (hv : v < nv) :
    unravel (xs ++ [nv]) (ravel [size xs, nv] [x, v]) = unravel xs x ++ [v] := by
  have e : ravel [size xs, nv] [x, v] = x * nv + v := by simp [ravel, size]
  have hlt : x * nv + v < size xs * nv := by
    calc x * nv + v < x * nv + nv := by omega
      _ = (x + 1) * nv := by ring
      _ ≤ size xs * nv := Nat.mul_le_mul_right _ hx
  rw [e, unravel_concat xs nv _ hlt]
  rw [Nat.mul_comm x nv, Nat.mul_add_div (by omega), Nat.mul_add_mod, Nat.div_eq_of_lt hv, Nat.mod_eq_of_lt hv,
    Nat.add_zero]

theorem ncSnap_at (xs : List Nat) (nv : Nat) (vars : List (Arr ℝ)) (x v : Nat) (hx : x < size xs) (hv : v < nv) :
    (ncSnap xs nv vars).at' [x, v] = (reshapeTo [size xs, nv] (stackVars xs nv vars)).at' [x, v] := by
  simp only [ncSnap, reshapeTo, stackVars, List.getD_cons_succ, List.getD_cons_zero]
  rw [unravel_two xs nv x v hx hv]
  simp only [List.getLastD_concat, List.dropLast_concat]
  cases vars[v]? <;> rfl

/-- the exact condition under which NetCDF data are read -/
def NcReads (mpi4 : Bool) (nt nx nv item p : Nat) : Prop :=
  9 ≤ nt ∧ 3 * nChunks nt nx nv item p ≤ nt ∧ chunksReadable mpi4 nt (nChunks nt nx nv item p) nx nv p = true

theorem nChunks_pos (nt nx nv item p : Nat) : 0 < nChunks nt nx nv item p := by
  unfold nChunks; omega

/-- **C89 (exact).** For every set of distinct files with increasing time labels, every grid, number of variables,
    accepted settings, number of ranks, arrival order of messages and order of
    file writes: the fit of NetCDF files succeeds exactly when `NcReads`, at most `n_variables` variables are requested and
    the weights are not to be normalized; and then its files are those of the serial fit
    of the same snapshots given as arrays (`SameFiles`). -/
theorem netcdf_fit_exact (c : Cfg) (ω : ℂ) (mpi4 nw : Bool) (item : Nat) (names : List String)
    (raw : String → NcFile (List (Arr ℝ))) (hnd : names.Nodup) (hwf : ∀ f ∈ names, NcWF (raw f))
    (xs : List Nat) (nv nvars : Nat) (hnv : 0 < nv) (w : Arr ℝ) (hw : w.shape = xs ++ [nv])
    (hmean : lower c.meanType = "longtime" ∨ lower c.meanType = "blockwise" ∨ lower c.meanType = "zero")
    (hfeas : feasible c.nDft (nBlocks (rawNt names raw) c.nDft c.nOvlp) = .ok ())
    (hov : c.nOvlp ≤ (c.nDft : Int) - 1) (solver : ∀ nb, Solver nb) (p : Nat) (hp : 0 < p)
    (hone : ∀ r < p, (blockdist (size xs) p r).1 * nv ≠ 1) (hone1 : size xs * nv ≠ 1)
    (arrive : Nat → Nat → Nat → List (Write ℝ) → List (Write ℝ)) (harr : ∀ r a b l, (arrive r a b l).Perm l)
    (s : (β : Type) → List (Write β) → List (Write β)) (hs : ∀ β l, (s β l).Perm l) :
    ((fitNetcdf c ω mpi4 nw item names raw xs nv nvars w (solver _) p arrive s).isSome ↔
      nw = false ∧ nvars ≤ nv ∧ NcReads mpi4 (rawNt names raw) (size xs) nv item p) ∧
    ∀ flat, fitNetcdf c ω mpi4 nw item names raw xs nv nvars w (solver _) p arrive s = some flat →
      ∃ out, fitSerial c ω (ncArrays xs nv names raw) w (solver _) = some out ∧
        SameFiles xs nv (nFreq c.nDft c.isreal c.full) (min c.nSave (fitNb c (rawNt names raw))) flat out := by
  obtain ⟨m, hm⟩ := (mean_type_accepted c.meanType).2 hmean
  have hlenN := ncArrays_length xs nv names raw
  have hsh : ∀ a ∈ (ncArrays xs nv names raw).flatten, a.shape = w.shape := by
    intro a ha
    simp only [ncArrays, List.mem_flatten, List.mem_map] at ha
    obtain ⟨l, ⟨f, _, rfl⟩, ha⟩ := ha
    obtain ⟨v, _, rfl⟩ := List.mem_map.1 ha
    rw [hw]; rfl
  have hcontent : (names.map fun f => (ncContent xs nv raw f).snaps).flatten =
      ((names.map fun f => (raw f).snaps).flatten).map (ncSnap xs nv) := by
    rw [List.map_flatten, List.map_map]; rfl
  have harrays : (ncArrays xs nv names raw).flatten =
      ((names.map fun f => (raw f).snaps).flatten).map (stackVars xs nv) := by
    rw [List.map_flatten, List.map_map]; rfl
  have hwf' : ∀ f ∈ names, NcWF (ncContent xs nv raw f) := by
    intro f hf
    exact ⟨by simpa [ncContent] using (hwf f hf).1, (hwf f hf).2⟩
  have hget : ∀ r < p, ∀ s e, s ≤ e → e ≤ rawNt names raw →
      twoStageGet names (ncContent xs nv raw) p (size xs) nv p r (arrive r) s e =
      pslice (((ncArrays xs nv names raw).flatten.map (reshapeTo [size xs, nv])).map (flatSlab (size xs) nv p r)) s e := by
    intro r hr s e hse he
    have h := twoStageGet_eq names (ncContent xs nv raw) hnd hwf' (size xs) nv p p r hp le_rfl hr (arrive r) (harr r)
      _ rfl s e hse (by rw [hcontent, List.length_map]; exact he)
    rw [h, hcontent, harrays, List.map_map, List.map_map, List.map_map]
    congr 1
    apply List.map_congr_left
    intro vars _
    exact flatSlab_congr (size xs) nv p r hr _ _ fun x v hx hv => ncSnap_at xs nv vars x v hx hv
  have hsome : (nw = false ∧ nvars ≤ nv ∧ NcReads mpi4 (rawNt names raw) (size xs) nv item p) →
      ∃ flat, fitNetcdf c ω mpi4 nw item names raw xs nv nvars w (solver _) p arrive s = some flat ∧
      SameFiles xs nv (nFreq c.nDft c.isreal c.full) (min c.nSave (fitNb c (rawNt names raw))) flat
        (globalOut c ω (ncArrays xs nv names raw).flatten w (solver (fitNb c (rawNt names raw)))) := by
    rintro ⟨hnw, hvars, h9, h3, hr⟩
    obtain ⟨flat, h1, h2⟩ := flat_fit_global c ω (ncArrays xs nv names raw).flatten (rawNt names raw) hlenN w xs nv hw hsh
      m hm hfeas hov (solver _) hnv p hp hone
      (fun r => twoStageGet names (ncContent xs nv raw) p (size xs) nv p r (arrive r)) hget
      (nChunks (rawNt names raw) (size xs) nv item p) 3 (nChunks_pos _ _ _ _ _) (by omega) (by omega) s hs
    refine ⟨flat, ?_, h2⟩
    simp only [fitNetcdf, hr, hnw]
    rw [if_neg (by omega), if_neg (by omega), if_neg (by simp), if_pos trivial]
    exact h1
  have hnone : ¬ (nw = false ∧ nvars ≤ nv ∧ NcReads mpi4 (rawNt names raw) (size xs) nv item p) →
      fitNetcdf c ω mpi4 nw item names raw xs nv nvars w (solver _) p arrive s = none := by
    intro hno
    unfold fitNetcdf
    by_cases h9 : rawNt names raw < 9
    · simp only [h9, ↓reduceIte]
    by_cases hv : nvars > nv
    · simp only [h9, hv, ↓reduceIte]
    cases nw
    case true => simp only [h9, hv, ↓reduceIte]
    by_cases hr : chunksReadable mpi4 (rawNt names raw) (nChunks (rawNt names raw) (size xs) nv item p) (size xs) nv p
    · have hlt : rawNt names raw < nChunks (rawNt names raw) (size xs) nv item p * 3 := by
        by_contra hge
        exact hno ⟨rfl, by omega, by omega, by omega, hr⟩
      simp only [h9, hv, hr, ↓reduceIte, Bool.false_eq_true]
      exact flat_fit_none c ω (rawNt names raw) (solver _) p hp
        (fun r => twoStageGet names (ncContent xs nv raw) p (size xs) nv p r (arrive r)) _
        (nChunks (rawNt names raw) (size xs) nv item p) 3 (nChunks_pos _ _ _ _ _) (by omega) hlt xs nv s
    · simp only [h9, hv, hr, ↓reduceIte, Bool.false_eq_true]
  have hser := serial_out c ω (ncArrays xs nv names raw) w hsh (by rw [hw]; simp) m hm (by rw [hlenN]; exact hfeas) hov
    (solver _) (by rw [hw, size_snoc]; exact hone1)
  constructor
  · constructor
    · intro h
      by_contra hno
      rw [hnone hno] at h
      simp at h
    · intro h
      obtain ⟨flat, h1, _⟩ := hsome h
      rw [h1]; rfl
  · intro flat hflat
    refine ⟨_, hser, ?_⟩
    have hreads : nw = false ∧ nvars ≤ nv ∧ NcReads mpi4 (rawNt names raw) (size xs) nv item p := by
      by_contra hno
      rw [hnone hno] at hflat
      simp at hflat
    obtain ⟨flat', h1, h2⟩ := hsome hreads
    rw [hflat] at h1
    simp only [Option.some.injEq] at h1
    subst h1
    exact SameFiles.cast c ω (ncArrays xs nv names raw).flatten w solver hlenN.symm h2

/-! ### Which data sets are read -/

/-- **C89 (`_partial`).** With MPI ≥ 4, data of at least 9 snapshots are read when a snapshot takes at most a third of
    256 MB per rank. -/
theorem netcdf_reads_partial (nt nx nv item p : Nat) (h9 : 9 ≤ nt) (hB : 3 * (nx * nv * item) ≤ p * 2 ^ 28)
    (hp : 0 < p) : NcReads true nt nx nv item p := by
  refine ⟨h9, ?_, ?_⟩
  · unfold nChunks
    have h1 : 3 * (nt * (nx * nv * item) / (p * 2 ^ 28)) ≤ nt := by
      have h2 := Nat.div_mul_le_self (nt * (nx * nv * item)) (p * 2 ^ 28)
      have hP : 0 < p * 2 ^ 28 := by positivity
      generalize nx * nv * item = B at *
      generalize p * 2 ^ 28 = P at *
      generalize nt * B / P = q at *
      by_contra hlt
      have h3 : nt * P < 3 * (q * P) := by
        have : nt * P < 3 * q * P := Nat.mul_lt_mul_of_pos_right (by omega) hP
        linarith
      have h4 : nt * (3 * B) ≤ nt * P := Nat.mul_le_mul_left _ hB
      nlinarith
    omega
  · simp [chunksReadable, readable, usePadding]

/-- **C89 (fails).** A snapshot of 128 MB per rank or more: the reader makes as many pieces as there are snapshots or
    more, and the fit raises, for every number of snapshots. -/
theorem netcdf_large_snapshots_fail (mpi4 : Bool) (nt nx nv item p : Nat) (hp : 0 < p)
    (hB : p * 2 ^ 28 ≤ 2 * (nx * nv * item)) : ¬ NcReads mpi4 nt nx nv item p := by
  rintro ⟨h9, h3, _⟩
  unfold nChunks at h3
  have h1 : nt / 2 ≤ nt * (nx * nv * item) / (p * 2 ^ 28) := by
    rw [Nat.le_div_iff_mul_le (by positivity)]
    generalize nx * nv * item = B at *
    generalize p * 2 ^ 28 = P at *
    have : nt / 2 * P ≤ nt / 2 * (2 * B) := Nat.mul_le_mul_left _ hB
    have h2 : nt / 2 * 2 ≤ nt := Nat.div_mul_le_self nt 2
    nlinarith
  omega

/-- **C89 (fails).** Fewer than 9 snapshots are refused, whatever the settings. -/
theorem netcdf_few_snapshots_fail (mpi4 : Bool) (nt nx nv item p : Nat) (h : nt < 9) :
    ¬ NcReads mpi4 nt nx nv item p := fun ⟨h9, _⟩ => by omega

/-- ten small snapshots on three ranks are read; three blocks of 8 snapshots are feasible but refused;
    307 MB snapshots (721×1440 points, 37 levels, double precision) on one rank are refused. -/
example : NcReads true 10 (4 * 5) 2 8 3 := netcdf_reads_partial _ _ _ _ _ (by omega) (by norm_num) (by omega)
example : ¬ NcReads true 8000 (721 * 1440 * 37) 1 8 1 := netcdf_large_snapshots_fail _ _ _ _ _ _ (by omega) (by norm_num)
example : (feasible 4 (nBlocks 8 4 2)).toOption = some () ∧ ¬ NcReads true 8 4 1 8 1 :=
  ⟨by decide +kernel, netcdf_few_snapshots_fail _ _ _ _ _ _ (by omega)⟩

/-- **C89 (fails).** More variables than `n_variables`: the fit raises. -/
theorem netcdf_more_variables_fail (c : Cfg) (ω : ℂ) (mpi4 nw : Bool) (item : Nat) (names : List String)
    (raw : String → NcFile (List (Arr ℝ))) (xs : List Nat) (nv nvars : Nat) (h : nv < nvars) (w : Arr ℝ)
    (solver : Solver (fitNb c (rawNt names raw))) (p : Nat)
    (arrive : Nat → Nat → Nat → List (Write ℝ) → List (Write ℝ))
    (sched : (α : Type) → List (Write α) → List (Write α)) :
    fitNetcdf c ω mpi4 nw item names raw xs nv nvars w solver p arrive sched = none := by
  unfold fitNetcdf
  simp only [gt_iff_lt, h, ↓reduceIte]
  split <;> rfl

/-- **C89 (silent).** Fewer variables than `n_variables`: the missing ones are read as zero (no error). -/
theorem netcdf_missing_variables_zero (xs : List Nat) (nv : Nat) (vars : List (Arr ℝ)) (v : Nat) (hv : vars.length ≤ v)
    (idx : List Nat) : (stackVars xs nv vars).at' (idx ++ [v]) = 0 := by
  simp only [stackVars, List.getLastD_concat]
  rw [List.getElem?_eq_none hv]

/-- the given variables are read unchanged -/
theorem netcdf_variables (xs : List Nat) (nv : Nat) (vars : List (Arr ℝ)) (v : Nat) (hv : v < vars.length)
    (idx : List Nat) : (stackVars xs nv vars).at' (idx ++ [v]) = vars[v].at' idx := by
  simp only [stackVars, List.getLastD_concat, List.dropLast_concat]
  rw [List.getElem?_eq_getElem hv]

/-! ### MPI before version 4 -/

/-- `ceil(n/p)` -/
theorem blockdist_first (n p : Nat) (hp : 0 < p) : (blockdist n p 0).1 * p ≤ n + p - 1 ∧ n ≤ (blockdist n p 0).1 * p := by
  have h := Nat.div_add_mod n p
  have h2 := Nat.mod_lt n hp
  simp only [blockdist]
  rw [Nat.mul_comm p] at h
  rw [if_pos hp]
  simp only [Nat.add_mul]
  split <;> omega

/-- **C90 (exact).** An interval of `n` snapshots is read exactly when MPI is version 4 or later, or the padded size of
    the exchange stays below `2^31 - 1` values: otherwise the branch that was meant to lift that limit raises. -/
theorem padding_exact (mpi4 : Bool) (n nreaders nx nv p : Nat) :
    readable mpi4 n nreaders nx nv p = true ↔
      mpi4 = true ∨ (blockdist n nreaders 0).1 * p * (blockdist nx p 0).1 * nv < 2 ^ 31 - 1 := by
  simp [readable, usePadding]

/-- **C90 (`_partial`).** Before MPI 4 a set of chunks of at most `n` snapshots is read when
    `(n + p)(nx + p) nv < p (2^31 - 1)`. -/
theorem padding_partial (nt nc nx nv p n : Nat) (hp : 0 < p) (hn : ∀ k < nc, (blockdist nt nc k).1 ≤ n)
    (h : (n + p) * (nx + p) * nv < p * (2 ^ 31 - 1)) : chunksReadable false nt nc nx nv p = true := by
  simp only [chunksReadable, List.all_eq_true, List.mem_range]
  intro k hk
  rw [padding_exact]
  right
  have h1 := (blockdist_first (blockdist nt nc k).1 p hp).1
  have h2 := (blockdist_first nx p hp).1
  have hk' := hn k hk
  generalize (blockdist (blockdist nt nc k).1 p 0).1 = a at *
  generalize (blockdist nx p 0).1 = b at *
  have h3 : a * p ≤ n + p := by omega
  have h4 : b * p ≤ nx + p := by omega
  have h5 : (a * p) * (b * p) * nv ≤ (n + p) * (nx + p) * nv := Nat.mul_le_mul_right _ (Nat.mul_le_mul h3 h4)
  have h6 : p * (a * p * b * nv) < p * (2 ^ 31 - 1) := by
    calc p * (a * p * b * nv) = (a * p) * (b * p) * nv := by ring
      _ ≤ _ := h5
      _ < _ := h
  exact lt_of_mul_lt_mul_left h6 (Nat.zero_le _)

/-- **C90 (fails).** Before MPI 4, snapshots of `2^31 - 1` values or more are never read: the fit raises on any number
    of ranks. -/
theorem padding_fails (nt nc nx nv p : Nat) (hp : 0 < p) (hc : 0 < nc) (hnt : nc ≤ nt)
    (hbig : 2 ^ 31 - 1 ≤ nx * nv) : chunksReadable false nt nc nx nv p = false := by
  rw [← Bool.not_eq_true]
  simp only [chunksReadable, List.all_eq_true, List.mem_range]
  intro hall
  have h := hall 0 hc
  rw [padding_exact] at h
  rcases h with h | h
  · simp at h
  · have h0 := (blockdist_first nt nc hc).2
    have hn : 0 < (blockdist nt nc 0).1 := by
      rcases Nat.eq_zero_or_pos (blockdist nt nc 0).1 with h1 | h1
      · rw [h1] at h0; omega
      · exact h1
    have h1 := (blockdist_first (blockdist nt nc 0).1 p hp).2
    have ha : 0 < (blockdist (blockdist nt nc 0).1 p 0).1 := by
      rcases Nat.eq_zero_or_pos (blockdist (blockdist nt nc 0).1 p 0).1 with h2 | h2
      · rw [h2] at h1; omega
      · exact h2
    have h2 := (blockdist_first nx p hp).2
    generalize (blockdist (blockdist nt nc 0).1 p 0).1 = a at *
    generalize (blockdist nx p 0).1 = b at *
    have h3 : nx * nv ≤ b * p * nv := Nat.mul_le_mul_right _ h2
    have h4 : b * p * nv ≤ a * p * b * nv := by
      calc b * p * nv = 1 * (b * p * nv) := by ring
        _ ≤ a * (b * p * nv) := Nat.mul_le_mul_right _ ha
        _ = a * p * b * nv := by ring
    omega

/-- the same snapshots are read on MPI 4, by a run of 256 ranks -/
example : NcReads true 9 (2 ^ 31) 1 8 256 ∧ ¬ NcReads false 9 (2 ^ 31) 1 8 256 := by
  refine ⟨netcdf_reads_partial _ _ _ _ _ (by omega) (by norm_num) (by omega), ?_⟩
  rintro ⟨_, h3, h⟩
  rw [padding_fails _ _ _ _ _ (by omega) (nChunks_pos _ _ _ _ _) (by omega) (by norm_num)] at h
  simp at h
/-- ten thousand snapshots of a million values on 4 ranks are read before MPI 4 -/
example : NcReads false 10000 1000000 1 8 4 := by
  refine ⟨by omega, by decide +kernel, ?_⟩
  decide +kernel

/-! ### MATLAB -/

/-- What a `.mat` file of shape `[nv, n1, n2, n3]` means: value `v` at point `(i, j, k)` is its entry `[v, i, j, k]`. -/
noncomputable def matArray (n1 n2 n3 nv : Nat) (d : Arr (Option ℝ)) : Arr ℝ :=
  ⟨[n1, n2, n3] ++ [nv], fun idx => (d.at' [idx.getD 3 0, idx.getD 0 0, idx.getD 1 0, idx.getD 2 0]).getD 0⟩

/-- all entries are finite -/
def MatFinite (d : Arr (Option ℝ)) : Prop := ∀ idx, InRange d.shape idx → (d.at' idx).isSome

theorem matFinite_all (d : Arr (Option ℝ)) :
    ((List.range (size d.shape)).all fun k => (d.at' (unravel d.shape k)).isSome) = true ↔ MatFinite d := by
  simp only [List.all_eq_true, List.mem_range, MatFinite]
  constructor
  · intro h idx hidx
    have := h _ (ravel_lt hidx)
    rw [unravel_ravel hidx] at this
    exact this
  · intro h k hk
    exact h _ (inRange_unravel hk)

theorem matRead_ok (n1 n2 n3 nv : Nat) (hnv : 0 < nv) (d : Arr (Option ℝ)) (hd : d.shape = [nv, n1, n2, n3])
    (hf : MatFinite d) :
    matRead (size [n1, n2, n3]) nv d = some (reshapeTo [size [n1, n2, n3], nv] (matArray n1 n2 n3 nv d)) := by
  have hall := (matFinite_all d).2 hf
  rw [hd] at hall
  have hs : size [n1, n2, n3, nv] = size [n1, n2, n3] * nv := by simp [size, Nat.mul_assoc]
  unfold matRead
  rw [hd]
  simp only [hall, ↓reduceIte]
  rw [if_neg (by omega), if_neg (by rw [hs]; simp), if_pos (by rw [hs, Nat.mul_div_cancel _ hnv])]
  rfl

/-- the exact condition under which MATLAB data are read -/
def MatReads (mpi4 : Bool) (nt nx nv item p : Nat) : Prop :=
  3 * nChunksMat nt nx nv item p ≤ nt ∧ chunksReadable mpi4 nt (nChunksMat nt nx nv item p) nx nv p = true

theorem nChunksMat_pos (nt nx nv item p : Nat) (hp : 0 < p) (hn : 0 < nt) : 0 < nChunksMat nt nx nv item p := by
  have h1 := nChunks_pos nt nx nv item p
  have h2 : 0 < (nt + p - 1) / p := Nat.div_pos (by omega) hp
  unfold nChunksMat
  omega

/-- **C91 (exact).** For every list of files of one shape `[nv, n1, n2, n3]` with finite entries, in any order, every
    accepted setting, number of ranks, arrival order of messages and order of file writes: the fit succeeds exactly when
    `MatReads` and the weights are not to be normalized, and then its files are those of the serial fit of the snapshots in name order (`srt`), given as arrays. -/
theorem mat_fit_exact (c : Cfg) (ω : ℂ) (mpi4 nw : Bool) (item : Nat) (files : List String)
    (raw : String → Arr (Option ℝ)) (n1 n2 n3 nv : Nat) (hnv : 0 < nv) (hne : files ≠ [])
    (hshape : ∀ f ∈ files, (raw f).shape = [nv, n1, n2, n3]) (hfin : ∀ f ∈ files, MatFinite (raw f))
    (srt : List String) (hperm : srt.Perm files) (hsrt : srt.Pairwise (· ≤ ·))
    (w : Arr ℝ) (hw : w.shape = [n1, n2, n3] ++ [nv])
    (hmean : lower c.meanType = "longtime" ∨ lower c.meanType = "blockwise" ∨ lower c.meanType = "zero")
    (hfeas : feasible c.nDft (nBlocks files.length c.nDft c.nOvlp) = .ok ())
    (hov : c.nOvlp ≤ (c.nDft : Int) - 1) (solver : ∀ nb, Solver nb) (p : Nat) (hp : 0 < p)
    (hone : ∀ r < p, (blockdist (size [n1, n2, n3]) p r).1 * nv ≠ 1) (hone1 : size [n1, n2, n3] * nv ≠ 1)
    (arrive : Nat → Nat → Nat → List (Write ℝ) → List (Write ℝ)) (harr : ∀ r a b l, (arrive r a b l).Perm l)
    (s : (β : Type) → List (Write β) → List (Write β)) (hs : ∀ β l, (s β l).Perm l) :
    ((fitMat c ω mpi4 nw item files raw nv w (solver _) p arrive s).isSome ↔
      nw = false ∧ MatReads mpi4 files.length (size [n1, n2, n3]) nv item p) ∧
    ∀ flat, fitMat c ω mpi4 nw item files raw nv w (solver _) p arrive s = some flat →
      ∃ out, fitSerial c ω [srt.map fun f => matArray n1 n2 n3 nv (raw f)] w (solver _) = some out ∧
        SameFiles [n1, n2, n3] nv (nFreq c.nDft c.isreal c.full) (min c.nSave (fitNb c files.length)) flat out := by
  obtain ⟨m, hm⟩ := (mean_type_accepted c.meanType).2 hmean
  set nx := size [n1, n2, n3] with hnx
  have hread : ∀ f ∈ files, matRead nx nv (raw f) = some (reshapeTo [nx, nv] (matArray n1 n2 n3 nv (raw f))) :=
    fun f hf => matRead_ok n1 n2 n3 nv hnv (raw f) (hshape f hf) (hfin f hf)
  set frames := srt.map fun f => matArray n1 n2 n3 nv (raw f) with hframes
  have hlen : frames.length = files.length := by rw [hframes, List.length_map]; exact hperm.length_eq
  have hflat1 : [frames].flatten = frames := by simp
  have hlen1 : [frames].flatten.length = files.length := by rw [hflat1]; exact hlen
  have hsh : ∀ a ∈ frames, a.shape = w.shape := by
    intro a ha
    rw [hframes] at ha
    obtain ⟨f, _, rfl⟩ := List.mem_map.1 ha
    rw [hw]; rfl
  have hin : ∀ s e, s ≤ e → e ≤ (frames.map (reshapeTo [nx, nv])).length → ∀ q < p, matInputs files nx nv p raw s e q =
      pslice (frames.map (reshapeTo [nx, nv])) (s + startOf (e - s) p q)
        (s + startOf (e - s) p q + countOf (e - s) p q) := by
    intro s e _ _ q _
    simp only [matInputs, startOf, countOf]
    rw [(mat_reader_order (matContent nx nv raw) files _ _).1 srt hperm hsrt]
    congr 1
    rw [hframes, List.map_map]
    apply List.map_congr_left
    intro f hf
    simp only [matContent, hread f (hperm.mem_iff.1 hf), Option.getD_some, Function.comp_apply]
  have hget : ∀ r < p, ∀ s e, s ≤ e → e ≤ files.length →
      redistGet (matInputs files nx nv p raw) nx nv p r (arrive r) s e =
      pslice ((frames.map (reshapeTo [nx, nv])).map (flatSlab nx nv p r)) s e := by
    intro r hr s e hse he
    exact redistGet_eq _ _ nx nv p r hr hin (arrive r) (harr r) s e hse (by rw [List.length_map, hlen]; exact he)
  have hnt : 0 < files.length := List.length_pos_iff.2 hne
  have hpos := nChunksMat_pos files.length nx nv item p hp hnt
  have hunf : fitMat c ω mpi4 nw item files raw nv w (solver _) p arrive s =
      if nw then none
      else if chunksReadable mpi4 files.length (nChunksMat files.length nx nv item p) nx nv p then
        fitFlat c ω files.length (solver _) s [n1, n2, n3] nv ((List.range p).map fun r =>
          (.dict (dictPieces (redistGet (matInputs files nx nv p raw) nx nv p r (arrive r)) files.length
            (nChunksMat files.length nx nv item p) 3),
            distributeDimension (reshapeTo [nx, nv] w) 0 (some (p, r))))
      else none := by
    clear hget hin hpos hfeas hsrt hlen1 hflat1 hlen hsh hperm
    cases files with
    | nil => exact absurd rfl hne
    | cons f0 rest =>
      have h0 : (raw f0).shape.tail = [n1, n2, n3] := by rw [hshape f0 (by simp)]; rfl
      have hall : ((f0 :: rest).all fun f => (matRead nx nv (raw f)).isSome) = true := by
        rw [List.all_eq_true]
        intro f hf
        rw [hread f hf]; rfl
      simp only [fitMat, h0, ← hnx, hall, ↓reduceIte]
  have hsome : (nw = false ∧ MatReads mpi4 files.length nx nv item p) →
      ∃ flat, fitMat c ω mpi4 nw item files raw nv w (solver _) p arrive s = some flat ∧
      SameFiles [n1, n2, n3] nv (nFreq c.nDft c.isreal c.full) (min c.nSave (fitNb c files.length)) flat
        (globalOut c ω frames w (solver (fitNb c files.length))) := by
    rintro ⟨hnw, h3, hr⟩
    obtain ⟨flat, h1, h2⟩ := flat_fit_global c ω frames files.length hlen w [n1, n2, n3] nv hw hsh
      m hm hfeas hov (solver _) hnv p hp hone
      (fun r => redistGet (matInputs files nx nv p raw) nx nv p r (arrive r)) hget
      (nChunksMat files.length nx nv item p) 3 hpos (by omega) (by omega) s hs
    refine ⟨flat, ?_, h2⟩
    rw [hunf, if_neg (by simp [hnw]), if_pos hr]
    exact h1
  have hnone : ¬ (nw = false ∧ MatReads mpi4 files.length nx nv item p) →
      fitMat c ω mpi4 nw item files raw nv w (solver _) p arrive s = none := by
    intro hno
    rw [hunf]
    cases nw
    case true => rw [if_pos rfl]
    rw [if_neg (by simp)]
    by_cases hr : chunksReadable mpi4 files.length (nChunksMat files.length nx nv item p) nx nv p
    · rw [if_pos hr]
      have hlt : files.length < nChunksMat files.length nx nv item p * 3 := by
        by_contra hge
        exact hno ⟨rfl, by omega, hr⟩
      exact flat_fit_none c ω files.length (solver _) p hp
        (fun r => redistGet (matInputs files nx nv p raw) nx nv p r (arrive r)) _
        (nChunksMat files.length nx nv item p) 3 hpos (by omega) hlt _ nv s
    · rw [if_neg hr]
  have hser := serial_out c ω [frames] w (by rw [hflat1]; exact hsh) (by rw [hw]; simp) m hm
    (by rw [hlen1]; exact hfeas) hov (solver _) (by rw [hw, size_snoc]; exact hone1)
  constructor
  · constructor
    · intro h
      by_contra hno
      rw [hnone hno] at h
      simp at h
    · intro h
      obtain ⟨flat, h1, _⟩ := hsome h
      rw [h1]; rfl
  · intro flat hflat
    refine ⟨_, hser, ?_⟩
    have hreads : nw = false ∧ MatReads mpi4 files.length nx nv item p := by
      by_contra hno
      rw [hnone hno] at hflat
      simp at hflat
    obtain ⟨flat', h1, h2⟩ := hsome hreads
    rw [hflat] at h1
    simp only [Option.some.injEq] at h1
    subst h1
    have h4 : SameFiles [n1, n2, n3] nv (nFreq c.nDft c.isreal c.full) (min c.nSave (fitNb c files.length)) flat
        (globalOut c ω [frames].flatten w (solver (fitNb c files.length))) := by
      rw [hflat1]; exact h2
    exact SameFiles.cast c ω [frames].flatten w solver hlen1.symm h4

/-- The MATLAB reader caps the number of chunks at `ceil(nt / p)`: with at least three ranks and no more snapshots than
    ranks one chunk is used, and three snapshots suffice (on MPI 4), however large a snapshot is. -/
theorem mat_reads_partial (nt nx nv item p : Nat) (h3 : 3 ≤ nt) (hle : nt ≤ p) :
    MatReads true nt nx nv item p := by
  constructor
  · have h2 : (nt + p - 1) / p = 1 := by
      rw [Nat.div_eq_iff (by omega)]
      omega
    have h1 := nChunks_pos nt nx nv item p
    unfold nChunksMat
    omega
  · simp [chunksReadable, readable, usePadding]

/-- small files: three snapshots suffice on any number of ranks -/
theorem mat_reads_small (nt nx nv item p : Nat) (h3 : 3 ≤ nt) (hp : 0 < p) (hB : 3 * (nx * nv * item) ≤ p * 2 ^ 28) :
    MatReads true nt nx nv item p := by
  constructor
  · have hle : nChunksMat nt nx nv item p ≤ nChunks nt nx nv item p := Nat.min_le_left _ _
    rcases Nat.lt_or_ge nt 9 with h9 | h9
    · have : nt * (nx * nv * item) / (p * 2 ^ 28) ≤ nt / 3 := by
        rw [Nat.div_le_iff_le_mul_add_pred (by positivity)]
        generalize nx * nv * item = B at *
        generalize p * 2 ^ 28 = P at *
        have h1 := Nat.div_add_mod nt 3
        have h2 := Nat.mod_lt nt (show 0 < 3 by omega)
        have h4 : nt * (3 * B) ≤ nt * P := Nat.mul_le_mul_left _ hB
        have h5 : 0 < P ∨ P = 0 := by omega
        rcases h5 with h5 | h5
        · interval_cases nt <;> simp at * <;> omega
        · subst h5; simp at hB; subst hB; simp
      unfold nChunks at hle
      omega
    · have := (netcdf_reads_partial nt nx nv item p h9 hB hp).2.1
      omega
  · simp [chunksReadable, readable, usePadding]

/-- **C91 (fails).** One non-finite value in any file: the fit raises. -/
theorem mat_nonfinite_fails (c : Cfg) (ω : ℂ) (mpi4 nw : Bool) (item : Nat) (files : List String)
    (raw : String → Arr (Option ℝ)) (nv : Nat) (f : String) (hf : f ∈ files) (hbad : ¬ MatFinite (raw f)) (w : Arr ℝ)
    (solver : Solver (fitNb c files.length)) (p : Nat)
    (arrive : Nat → Nat → Nat → List (Write ℝ) → List (Write ℝ))
    (sched : (α : Type) → List (Write α) → List (Write α)) :
    fitMat c ω mpi4 nw item files raw nv w solver p arrive sched = none := by
  have hr : ∀ nx, matRead nx nv (raw f) = none := by
    intro nx
    unfold matRead
    split
    · rename_i nv0 n1 n2 n3 hsh
      rw [if_neg]
      intro h
      exact hbad ((matFinite_all _).1 h)
    · rfl
  cases files with
  | nil => simp at hf
  | cons f0 rest =>
    have hall : ∀ nx, ¬ ((f0 :: rest).all fun f => (matRead nx nv (raw f)).isSome) = true := by
      intro nx h
      rw [List.all_eq_true] at h
      have := h f hf
      rw [hr] at this
      simp at this
    unfold fitMat
    simp only [hall, ↓reduceIte]
    cases nw <;> rfl

/-- **C91 (silent).** The shapes of the files are not compared: a file with the axes of the grid exchanged is read as if
    it had the shape of the first file, its values at the wrong points. -/
theorem mat_shape_not_checked (n1 n2 n3 nv : Nat) (hnv : 0 < nv) (d : Arr (Option ℝ)) (hd : d.shape = [nv, n2, n1, n3])
    (hf : MatFinite d) :
    matRead (size [n1, n2, n3]) nv d = some (reshapeTo [size [n1, n2, n3], nv] (matArray n2 n1 n3 nv d)) := by
  have h := matRead_ok n2 n1 n3 nv hnv d hd hf
  have e : size [n2, n1, n3] = size [n1, n2, n3] := by simp only [size]; ring
  rw [e] at h
  exact h

/-- **C91 (silent).** A file with a single point is spread over the whole grid. -/
theorem mat_point_broadcast (nx nv : Nat) (hnv : 0 < nv) (hnx : nx ≠ 1) (d : Arr (Option ℝ)) (hd : d.shape = [nv, 1, 1, 1])
    (hf : MatFinite d) :
    ∃ a, matRead nx nv d = some a ∧ ∀ x v, x < nx → v < nv → some (a.at' [x, v]) = d.at' [v, 0, 0, 0] := by
  have hall := (matFinite_all d).2 hf
  rw [hd] at hall
  have hs : size [1, 1, 1, nv] = nv := by simp [size]
  unfold matRead
  rw [hd]
  simp only [hall, ↓reduceIte, hs, Nat.mod_self, ne_eq, not_true_eq_false, Nat.div_self hnv]
  rw [if_neg (by omega), if_neg (fun h => hnx h.symm)]
  refine ⟨_, rfl, ?_⟩
  intro x v _ hv
  have e : unravel [1, 1, 1, nv] (ravel [1, nv] [0, v]) = [0, 0, 0, v] := by
    simp [ravel, unravel, size, Nat.div_eq_of_lt hv, Nat.mod_eq_of_lt hv]
  simp only [reshapeTo, List.getD_cons_succ, List.getD_cons_zero, e]
  have h1 := hf [v, 0, 0, 0] (by rw [hd]; exact ⟨hv, Nat.one_pos, Nat.one_pos, Nat.one_pos, trivial⟩)
  exact (Option.some_get h1).symm ▸ rfl

/-! ### Concrete fits -/

noncomputable def ffCfg : Cfg := ⟨4, 2, "LongTime", true, 0, false, true, [1, 1, 1, 1], 2⟩

/-- five snapshots of two variables on a 2×3 grid, all entries different -/
noncomputable def exNc (f : String) : NcFile (List (Arr ℝ)) :=
  ⟨[0, 1, 2, 3, 4], (List.range 5).map fun (t : Nat) => [⟨[2, 3], fun i => f.length + 10 * t + ravel [2, 3] i⟩,
    ⟨[2, 3], fun i => f.length - 10 * t - ravel [2, 3] i⟩]⟩

/-- a fit of two files of five snapshots on 2 ranks writes its files -/
example (ω : ℂ) (solver : ∀ nb, Solver nb) :
    (fitNetcdf ffCfg ω false false 8 ["a", "bb"] exNc [2, 3] 2 2 ⟨[2, 3, 2], fun _ => 1⟩ (solver _) 2
      (fun _ _ _ l => l.reverse) (fun _ l => l.reverse)).isSome := by
  have h9 : rawNt ["a", "bb"] exNc = 10 := rfl
  refine (netcdf_fit_exact ffCfg ω false false 8 ["a", "bb"] exNc (by decide) ?_ [2, 3] 2 2 (by omega) _ rfl
    (Or.inl (by decide +kernel)) (by rw [h9]; decide +kernel) (by decide) solver 2 (by omega) ?_ (by decide) _
    (fun _ _ _ _ => List.reverse_perm _) _ (fun _ _ => List.reverse_perm _)).1.2 ⟨rfl, by omega, ?_⟩
  · intro f _
    exact ⟨rfl, by simp [exNc]⟩
  · intro r hr
    interval_cases r <;> decide
  · rw [h9]
    refine ⟨by omega, by decide +kernel, by decide +kernel⟩

/-- six files of two variables on a 2×2×1 grid -/
noncomputable def exMat (f : String) : Arr (Option ℝ) := ⟨[2, 2, 2, 1], fun i => some (f.length + ravel [2, 2, 2, 1] i)⟩

/-- a fit of six files on 2 ranks, listed in any order, writes its files -/
example (ω : ℂ) (solver : ∀ nb, Solver nb) :
    (fitMat ffCfg ω true false 8 ["f3", "f1", "f2", "f4", "f6", "f5"] exMat 2 ⟨[2, 2, 1, 2], fun _ => 1⟩ (solver _) 2
      (fun _ _ _ l => l) (fun _ l => l.reverse)).isSome := by
  refine (mat_fit_exact ffCfg ω true false 8 ["f3", "f1", "f2", "f4", "f6", "f5"] exMat 2 2 1 2 (by omega) (by simp)
    (fun _ _ => rfl) (fun _ _ _ _ => rfl) (sortNames ["f3", "f1", "f2", "f4", "f6", "f5"]) (sortNames_perm _)
    (sortNames_sorted _) _ rfl
    (Or.inl (by decide +kernel)) (by decide +kernel) (by decide) solver 2 (by omega) ?_ (by decide) _
    (fun _ _ _ _ => List.Perm.refl _) _ (fun _ _ => List.reverse_perm _)).1.2
    ⟨rfl, mat_reads_small _ _ _ _ _ (by decide) (by omega) (by decide)⟩
  intro r hr
  interval_cases r <;> decide

end Verif.Props
