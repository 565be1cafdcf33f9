import Verif.Model.CachedFit
import Verif.Props.Cache
import Verif.Props.Project
import Verif.Props.Influence
/-
  C193, C194: several fits with `savefft` / `reuse_blocks` in one results folder.
-/
set_option linter.unusedSectionVars false
set_option linter.unusedSimpArgs false
namespace Verif.Props
open Verif Verif.Par Verif.Rd Verif.Spod Verif.Fit Verif.Names Verif.Cache Verif.CFit Matrix

/-! ### From realizations to files, whatever the realizations are -/

/-- local index to global index -/
def toG (ax n : Nat) : Comm → List Nat → List Nat
  | none, idx => idx
  | some (p, r), idx => idx.set ax (idx.getD ax 0 + startOf n p r)

theorem dist_at {α} (A : Arr α) (ax : Nat) (cm : Comm) (idx : List Nat) :
    (distributeDimension A ax cm).at' idx = A.at' (toG ax (ext A.shape ax) cm idx) := by
  rcases cm with - | ⟨p, r⟩ <;> rfl

theorem dist_shape_congr {α β} (A : Arr α) (B : Arr β) (h : A.shape = B.shape) (ax : Nat) (cm : Comm) :
    (distributeDimension A ax cm).shape = (distributeDimension B ax cm).shape := by
  rcases cm with - | ⟨p, r⟩ <;> simp [distributeDimension, Arr.slice, h]

theorem toG_inRange (w : Arr ℝ) (ax p r : Nat) (hax : ax < w.shape.length) (x : List Nat)
    (hx : InRange (distributeDimension w ax (some (p, r))).shape x) :
    InRange w.shape (toG ax (ext w.shape ax) (some (p, r)) x) := by
  apply inRange_shift w.shape ax _ (countOf (ext w.shape ax) p r) hax
  simpa [distributeDimension, Arr.slice] using hx

theorem phi_part {nb : Nat} (nS : Nat) (w : Arr ℝ) (ax : Nat) (hax : ax < w.shape.length) (p r : Nat)
    (Qr Q : Nat → Arr ℂ) (h : ∀ b < nb, ∀ idx, InRange (distributeDimension w ax (some (p, r))).shape idx →
      (Qr b).at' idx = (Q b).at' (toG ax (ext w.shape ax) (some (p, r)) idx))
    (fac : Nat) (L0 : Fin nb → ℂ) (V0 : Matrix (Fin nb) (Fin nb) ℂ) (σ : Equiv.Perm (Fin nb)) :
    (phiArr (distributeDimension w ax (some (p, r))).shape nS
      (spodFreq (rowsOf (distributeDimension w ax (some (p, r))).shape Qr) L0 V0 σ fac).2).Eqv
    (distributeDimension (phiArr w.shape nS (spodFreq (rowsOf w.shape Q) L0 V0 σ fac).2) ax (some (p, r))) := by
  have hext : ext (w.shape ++ [min nS nb]) ax = ext w.shape ax := by
    simp [ext, List.getD_eq_getElem?_getD, List.getElem?_append_left hax]
  constructor
  · simp only [distributeDimension, phiArr, Arr.slice, hext]
    rw [List.set_append_left _ _ hax]
  · intro idx hidx
    obtain ⟨x, k, rfl, hx, hk⟩ := inRange_append hidx
    have hk' : k < nb := by omega
    rw [phiArr_at _ _ _ x k hx hk']
    have hxl : ax < x.length := by
      have := hx.length
      simp only [distributeDimension, Arr.slice, List.length_set] at this
      omega
    have hshift := toG_inRange w ax p r hax x hx
    have e : (distributeDimension (phiArr w.shape nS (spodFreq (rowsOf w.shape Q) L0 V0 σ fac).2) ax
        (some (p, r))).at' (x ++ [k]) =
        (phiArr w.shape nS (spodFreq (rowsOf w.shape Q) L0 V0 σ fac).2).at'
          (toG ax (ext w.shape ax) (some (p, r)) x ++ [k]) := by
      have hN : ext (phiArr w.shape nS (spodFreq (rowsOf w.shape Q) L0 V0 σ fac).2).shape ax = ext w.shape ax := hext
      rw [dist_at, hN]
      simp only [toG]
      rw [List.set_append_left _ _ hxl]
      congr 3
      simp [List.getD_eq_getElem?_getD, List.getElem?_append_left hxl]
    rw [e, phiArr_at _ _ _ _ k hshift hk']
    apply spodFreq_row
    intro b
    simp only [rowsOf, Matrix.of_apply, unravel_ravel hx, unravel_ravel hshift]
    exact h b b.2 x hx

/-- What is reported for the realizations `Q` and the weights `w` at one frequency. -/
def Reports (c : Cfg) {nb : Nat} (w : Arr ℝ) (solver : Solver nb) (f : Nat) (Q : Matrix (Fin (size w.shape)) (Fin nb) ℂ)
    (out : Out nb) : Prop :=
  let s := solver (crossSpectral Q (specW w))
  let r := spodFreq Q s.1 s.2.1 s.2.2 (oneSidedFactor c.isreal (nFreq c.nDft c.isreal c.full) f)
  out.eigs f = r.1 ∧ out.modes f = npSave (phiArr w.shape c.nSave r.2)

theorem finish_par (c : Cfg) (nt : Nat) (hnb : 2 ≤ fitNb c nt) (w : Arr ℝ) (solver : Solver (fitNb c nt))
    (ax : Nat) (hax : ax < w.shape.length) (p : Nat) (hp : 0 < p)
    (hone : ∀ r < p, size (distributeDimension w ax (some (p, r))).shape ≠ 1)
    (s : (β : Type) → List (Write β) → List (Write β)) (hs : ∀ β l, (s β l).Perm l)
    (src : Nat → Src) (lt0 : List Nat → ℝ)
    (hlt : ∀ r < p, ∃ lt, srcMean (fitNb c nt) nt (src r) = some lt ∧
      ∀ idx, InRange (distributeDimension w ax (some (p, r))).shape idx →
        lt idx = lt0 (toG ax (ext w.shape ax) (some (p, r)) idx))
    (Qr : Nat → Nat → Nat → Arr ℂ) (Q : Nat → Nat → Arr ℂ) :
    ∃ out, finish c nt solver (some s) ax ((List.range p).map fun r =>
        ((src r, distributeDimension w ax (some (p, r))), Qr r)) = some out ∧
      out.weights = npSave w ∧ out.ltm = npSave ⟨w.shape, lt0⟩ ∧
      ∀ f, (∀ b < fitNb c nt, (Q f b).shape = w.shape) →
        (∀ r < p, ∀ b < fitNb c nt, ∀ idx, InRange (distributeDimension w ax (some (p, r))).shape idx →
          (Qr r f b).at' idx = (Q f b).at' (toG ax (ext w.shape ax) (some (p, r)) idx)) →
        Reports c w solver f (rowsOf w.shape (Q f)) out := by
  have hch : ∀ r : Nat, ∃ lt, r < p → srcMean (fitNb c nt) nt (src r) = some lt ∧
      ∀ idx, InRange (distributeDimension w ax (some (p, r))).shape idx →
        lt idx = lt0 (toG ax (ext w.shape ax) (some (p, r)) idx) := by
    intro r
    by_cases hr : r < p
    · obtain ⟨lt, h⟩ := hlt r hr
      exact ⟨lt, fun _ => h⟩
    · exact ⟨fun _ => 0, fun h => absurd h hr⟩
  choose lt hlt' using hch
  let st : Nat → (Nat → Nat → Arr ℂ) × (Nat → Nat → Nat → ℂ) × Arr ℝ := fun r =>
    (Qr r, fun f => localGram (Qr r f) (cW (distributeDimension w ax (some (p, r)))) (fitNb c nt : ℂ),
     ⟨(distributeDimension w ax (some (p, r))).shape, lt r⟩)
  have hst : ((List.range p).map fun r =>
      (((src r, distributeDimension w ax (some (p, r))), Qr r) : (Src × Arr ℝ) × (Nat → Nat → Arr ℂ))).mapM
        (fun x => stateFrom c nt x.1 x.2) = some ((List.range p).map st) := by
    rw [List.mapM_map]
    apply mapM_some
    intro r hr
    have hr := List.mem_range.1 hr
    rw [Function.comp_apply, stateFrom, (hlt' r hr).1]
    simp only [gramShape_ok _ _ (hone r hr) hnb, ↓reduceIte]
    rfl
  simp only [finish, hst]
  refine ⟨_, rfl, ?_, ?_, ?_⟩
  · simp only [List.map_map]
    exact saveAll_slabs w ax p hp hax s hs _ fun r _ => Arr.Eqv.refl _
  · simp only [List.map_map]
    refine saveAll_slabs ⟨w.shape, lt0⟩ ax p hp hax s hs _ fun r hr => ⟨rfl, fun idx hidx => ?_⟩
    rw [dist_at]
    exact (hlt' r hr).2 idx hidx
  · intro f hsh hQ
    -- realizations with the right shape for every block number
    let Q' : Nat → Arr ℂ := fun b => if b < fitNb c nt then Q f b else ⟨w.shape, fun _ => 0⟩
    have hQ' : ∀ b < fitNb c nt, Q' b = Q f b := fun b hb => if_pos hb
    have hM : (Matrix.of fun (i j : Fin (fitNb c nt)) =>
        allreduce (((List.range p).map st).map fun x => x.2.1 f i j)) =
        crossSpectral (rowsOf w.shape (Q f)) (specW w) := by
      have e : rowsOf (nb := fitNb c nt) w.shape (Q f) = rowsOf w.shape Q' := by
        ext k b
        simp only [rowsOf, Matrix.of_apply, hQ' b b.2]
      rw [e, ← gramSpec_eq_crossSpectral]
      ext i j
      simp only [Matrix.of_apply]
      rw [← gram_rank_independent p ax Q' (cW w) _ hp hax (fun b => by
        by_cases hb : b < fitNb c nt
        · rw [hQ' b hb]; exact hsh b hb
        · simp only [Q', if_neg hb]; rfl)]
      simp only [gram, List.map_map]
      refine congrArg allreduce ?_
      apply List.map_congr_left
      intro r hr
      have hr := List.mem_range.1 hr
      refine localGram_congr _ _ _ _ i j (fun idx hidx => ?_) (fun idx hidx => ?_)
      · rw [dist_at, hQ' i i.2, hsh i i.2]; exact hQ r hr i i.2 idx hidx
      · rw [dist_at, hQ' j j.2, hsh j j.2]; exact hQ r hr j j.2 idx hidx
    unfold Reports
    simp only [hM]
    refine ⟨rfl, ?_⟩
    simp only [List.map_map]
    refine saveAll_slabs _ ax p hp (by simp only [phiArr, List.length_append]; omega) s hs _ fun r hr => ?_
    exact phi_part c.nSave w ax hax p r (Qr r f) (Q f) (hQ r hr) _ _ _ _

theorem finish_ser (c : Cfg) (nt : Nat) (hnb : 2 ≤ fitNb c nt) (w : Arr ℝ) (solver : Solver (fitNb c nt))
    (ax : Nat) (hone : size w.shape ≠ 1) (src : Src) (lt0 : List Nat → ℝ)
    (hlt : ∃ lt, srcMean (fitNb c nt) nt src = some lt ∧ ∀ idx, InRange w.shape idx → lt idx = lt0 idx)
    (Qr Q : Nat → Nat → Arr ℂ) :
    ∃ out, finish c nt solver none ax [((src, w), Qr)] = some out ∧
      out.weights = npSave w ∧ out.ltm = npSave ⟨w.shape, lt0⟩ ∧
      ∀ f, (∀ b < fitNb c nt, ∀ idx, InRange w.shape idx → (Qr f b).at' idx = (Q f b).at' idx) →
        Reports c w solver f (rowsOf w.shape (Q f)) out := by
  obtain ⟨lt, hlt, hl⟩ := hlt
  simp only [finish, List.mapM_cons, List.mapM_nil, stateFrom, hlt, gramShape_ok _ _ hone hnb, ↓reduceIte,
    Option.pure_def, Option.bind_eq_bind, Option.bind_some, List.map_cons, List.map_nil, saveAll]
  refine ⟨_, rfl, rfl, npSave_congr ⟨rfl, hl⟩, ?_⟩
  intro f hQ
  have e : rowsOf (nb := fitNb c nt) w.shape (Qr f) = rowsOf w.shape (Q f) := by
    ext k b
    simp only [rowsOf, Matrix.of_apply]
    exact hQ b b.2 _ (inRange_unravel k.2)
  have hM : (Matrix.of fun (i j : Fin (fitNb c nt)) =>
      allreduce [localGram (Qr f) (cW w) (fitNb c nt : ℂ) i j]) =
      crossSpectral (rowsOf w.shape (Q f)) (specW w) := by
    rw [← e, ← gramSpec_eq_crossSpectral]
    ext i j
    simp only [Matrix.of_apply, allreduce, List.foldr_cons, List.foldr_nil, add_zero, localGram, gramSpec]
    rw [sum_unravel (cW w).shape fun idx => star ((Qr f i).at' idx) * ((Qr f j).at' idx * (cW w).at' idx)]
  unfold Reports
  simp only [← e] at hM ⊢
  have hM' : (Matrix.of fun (i j : Fin (fitNb c nt)) => allreduce [localGram (Qr f)
    ⟨w.shape, fun idx => ((w.at' idx : ℝ) : ℂ)⟩ (fitNb c nt : ℂ) i j]) = crossSpectral (rowsOf w.shape (Qr f)) (specW w) := hM
  rw [hM']
  exact ⟨rfl, rfl⟩

/-! ### Specification -/

/-- A fit that works when it does not use the cache: one variable on a grid `xs`, accepted settings, and either no
    communicator or ranks none of which is left with a single value. -/
structure JobOk (xs : List Nat) (j : Job) (m : MeanType) : Prop where
  acc : Accepted j.c j.files j.w m
  shape : j.w.shape = xs ++ [1]
  axes : xs ≠ []
  points : 0 < size xs
  ranks : ∀ p s, j.run = some (p, s) → 0 < p ∧ NoSingleton j.w p ∧ ∀ β l, (s β l).Perm l

/-- For every frequency, the fit whose blocks are in the folder. -/
abbrev Owners := Nat → Option Job

/-- The fit computes its own blocks: it may not reuse any, or some frequency it needs is not in the folder. -/
def Computes (O : Owners) (j : Job) : Prop := j.reuse = false ∨ ∃ f < j.nf, O f = none

open Classical in
/-- Effect of a fit on the folder: if it computes its blocks and saves them, they replace those of all its
    frequencies. -/
noncomputable def ownStep (O : Owners) (j : Job) : Owners :=
  if j.savefft = true ∧ Computes O j then fun f => if f < j.nf then some j else O f else O

/-- The fits whose blocks are in the folder after a sequence of fits. -/
noncomputable def ownersAfter (js : List Job) : Owners := js.foldl ownStep fun _ => none

open Classical in
/-- The fit whose blocks fit `j` works from at frequency `f`, after the fits `js`. -/
noncomputable def usedBy (js : List Job) (j : Job) (f : Nat) : Option Job :=
  if Computes (ownersAfter js) j then some j else ownersAfter js f

/-! ### One fit -/

/-- the snapshots and weights of the rank of communicator `cm` -/
def partIn (j : Job) (ax : Nat) (cm : Comm) : Src × Arr ℝ :=
  (.arr (j.files.flatten.map fun a => distributeDimension a ax cm), distributeDimension j.w ax cm)

/-- the array in the block file of fit `o` -/
noncomputable def blockArr (ω : ℂ) (xs : List Nat) (o : Job) (b f : Nat) : Arr ℂ :=
  ⟨xs, fun idx => pointHat o.c ω (atIdx (idx ++ [0]) o.files.flatten) f b⟩

theorem JobOk.nonempty {xs j m} (h : JobOk xs j m) : j.files.flatten ≠ [] := by
  intro he
  have h1 := ((feasible_iff j.files.flatten.length j.c.nDft j.c.nOvlp h.acc.overlap).1 h.acc.blocks).2
  rw [he] at h1
  have h2 := (feasible_nb j.c _ h.acc.blocks).2
  have h3 := h.acc.overlap
  simp at h1
  omega

theorem JobOk.nb2 {xs j m} (h : JobOk xs j m) : 2 ≤ fitNb j.c j.files.flatten.length :=
  (feasible_nb j.c _ h.acc.blocks).1

theorem JobOk.xshape_eq {xs j m} (h : JobOk xs j m) : j.xshape = xs := by
  unfold Job.xshape
  cases hf : j.files.flatten with
  | nil => exact absurd hf h.nonempty
  | cons a l =>
    simp only
    rw [h.acc.shapes a (by rw [hf]; simp), h.shape, List.dropLast_concat]

/-- the distributed axis is an axis of the grid -/
theorem JobOk.axis {xs j m} (h : JobOk xs j m) :
    ∃ ax, maxAxis j.files = some ax ∧ IsFirstMax j.w.shape ax ∧ ax < xs.length := by
  obtain ⟨ax, h1, h2⟩ := maxAxis_ok j.files j.w h.acc.shapes h.nonempty h.acc.axes
  refine ⟨ax, h1, h2, ?_⟩
  by_contra hcon
  have hlen : j.w.shape.length = xs.length + 1 := by rw [h.shape]; simp
  have hlt := h2.1
  have hpos : 0 < xs.length := List.length_pos_iff.2 h.axes
  have hax : ax = xs.length := by omega
  have hx := h2.2.2 0 (by omega)
  have h0 : ext j.w.shape ax = 1 := by rw [h.shape, hax]; simp [ext]
  have h1 : 0 < ext j.w.shape 0 := by
    rw [h.shape]
    obtain ⟨a, l, rfl⟩ := List.exists_cons_of_ne_nil h.axes
    have := h.points
    simp only [size] at this
    simpa [ext] using Nat.pos_of_mul_pos_right this
  unfold ext at h0 h1
  omega

theorem dist_shape (w : Arr ℝ) (ax p r : Nat) (hr : r < p) :
    (distributeDimension w ax (some (p, r))).shape = w.shape.set ax (countOf (ext w.shape ax) p r) := by
  have hle : startOf (ext w.shape ax) p r + countOf (ext w.shape ax) p r ≤ ext w.shape ax := by
    rcases Nat.lt_or_ge r (p - 1) with h | h
    · have h1 := endOf_le_startOf (ext w.shape ax) p h (by omega)
      have h2 := blockdist_end (ext w.shape ax) p (p - 1) (by omega) (by omega)
      omega
    · have h2 := blockdist_end (ext w.shape ax) p r (by omega) (by omega)
      omega
  simp only [distributeDimension, Arr.slice]
  congr 1
  simp only [startOf, countOf] at hle ⊢
  omega

theorem comms_valid (j : Job) (cm : Comm) (h : cm ∈ j.comms) : ∀ p r, cm = some (p, r) → r < p ∧ ∃ s, j.run = some (p, s) := by
  rintro p r rfl
  unfold Job.comms at h
  rcases hr : j.run with - | ⟨p', s⟩
  · rw [hr] at h; simp at h
  · rw [hr] at h
    simp only [List.mem_map, List.mem_range, Option.some.injEq, Prod.mk.injEq] at h
    obtain ⟨r', h1, rfl, rfl⟩ := h
    exact ⟨h1, s, rfl⟩

/-- the whole fit from realizations `Qr` that are the ranks' parts of `Q` -/
theorem finish_job {xs j m} (h : JobOk xs j m) (ax : Nat) (hm : IsFirstMax j.w.shape ax)
    (Qr : Comm → Nat → Nat → Arr ℂ) (Q : Nat → Nat → Arr ℂ) (hsh : ∀ f b, (Q f b).shape = j.w.shape) :
    ∃ out, finish j.c j.nt j.solver j.sched ax (j.comms.map fun cm => (partIn j ax cm, Qr cm)) = some out ∧
      out.weights = npSave j.w ∧ out.ltm = npSave (globalLtm j.c j.nt j.files.flatten j.w) ∧
      ∀ f, (∀ cm ∈ j.comms, ∀ b < j.nb, ∀ idx, InRange (distributeDimension j.w ax cm).shape idx →
          (Qr cm f b).at' idx = (Q f b).at' (toG ax (ext j.w.shape ax) cm idx)) →
        Reports j.c j.w j.solver f (rowsOf j.w.shape (Q f)) out := by
  have hlen : ∀ cm, (j.files.flatten.map fun a => distributeDimension a ax cm).length = j.files.flatten.length :=
    fun cm => List.length_map _
  rcases hr : j.run with - | ⟨p, s⟩
  · have hc : j.comms = [none] := by simp only [Job.comms, hr]
    have hsd : j.sched = none := by simp only [Job.sched, hr, Option.map_none]
    rw [hc, hsd]
    obtain ⟨out, h1, h2, h3, h4⟩ := finish_ser j.c j.files.flatten.length h.nb2 j.w j.solver ax h.acc.many
      (partIn j ax none).1 (globalLtm j.c j.nt j.files.flatten j.w).at' ⟨_, rfl, fun idx _ => by
        simp only [distributeDimension, List.map_id', globalLtm, Job.nt]⟩ (Qr none) Q
    refine ⟨out, h1, h2, h3, fun f hf => h4 f fun b hb idx hidx => ?_⟩
    exact hf none (by simp) b hb idx hidx
  · obtain ⟨hp, hone, hs⟩ := h.ranks p s hr
    have hc : j.comms = (List.range p).map fun (r : Nat) => some (p, r) := by simp only [Job.comms, hr]
    have hsd : j.sched = some s := by simp only [Job.sched, hr, Option.map_some]
    rw [hc, hsd]
    obtain ⟨out, h1, h2, h3, h4⟩ := finish_par j.c j.files.flatten.length h.nb2 j.w j.solver ax hm.1 p hp
      (fun r hr => by rw [dist_shape j.w ax p r hr]; exact hone ax hm r hr) s hs
      (fun r => (partIn j ax (some (p, r))).1) (globalLtm j.c j.nt j.files.flatten j.w).at'
      (fun r hr => ⟨_, rfl, fun idx hidx => by
        simp only [globalLtm, Job.nt]
        rw [atIdx_slab j.files.flatten j.w h.acc.shapes ax p r idx]
        rfl⟩) (fun r => Qr (some (p, r))) Q
    refine ⟨out, ?_, h2, h3, fun f hf => h4 f (fun b _ => hsh f b) fun r hr b hb idx hidx => ?_⟩
    · rw [List.map_map]; exact h1
    · exact hf (some (p, r)) (List.mem_map.2 ⟨r, List.mem_range.2 hr, rfl⟩) b hb idx hidx

theorem dist_one {β} (w : Arr ℝ) (xs : List Nat) (hw : w.shape = xs ++ [1]) (ax : Nat) (hax : ax < xs.length) (cm : Comm)
    (A : Arr β) (hA : A.shape = xs) :
    (distributeDimension w ax cm).shape = (distributeDimension A ax cm).shape ++ [1] := by
  have hext : ext (xs ++ [1]) ax = ext xs ax := by
    simp [ext, List.getD_eq_getElem?_getD, List.getElem?_append_left hax]
  rcases cm with - | ⟨p, r⟩
  · simp [distributeDimension, hw, hA]
  · simp only [distributeDimension, Arr.slice, hw, hA, hext]
    rw [List.set_append_left _ _ hax]

theorem toG_snoc (xs : List Nat) (ax n : Nat) (hax : ax < xs.length) (cm : Comm) (x : List Nat)
    (hx : x.length = xs.length) : toG ax n cm (x ++ [0]) = toG ax n cm x ++ [0] := by
  rcases cm with - | ⟨p, r⟩
  · rfl
  · have hxl : ax < x.length := by omega
    simp only [toG]
    rw [List.set_append_left _ _ hxl]
    congr 3
    simp [List.getD_eq_getElem?_getD, List.getElem?_append_left hxl]

theorem dist_length {β} (A : Arr β) (ax : Nat) (cm : Comm) :
    (distributeDimension A ax cm).shape.length = A.shape.length := by
  rcases cm with - | ⟨p, r⟩ <;> simp [distributeDimension, Arr.slice]

theorem blockArr_shape (ω : ℂ) (xs : List Nat) (o : Job) (b f : Nat) : (blockArr ω xs o b f).shape = xs := rfl

/-- loading blocks on one rank: any files that, assigned to a buffer of the shape of the grid, hold the arrays `A` -/
theorem load_any (w : Arr ℝ) (xs : List Nat) (hw : w.shape = xs ++ [1]) (ax : Nat) (hax : ax < xs.length)
    (cm : Comm) (hcm : ∀ p r, cm = some (p, r) → r < p) (F : Blocks) (nf nb : Nat) (hnb : 0 < nb)
    (A : Nat → Nat → Arr ℂ) (hA : ∀ f < nf, ∀ b < nb, (A f b).shape = xs)
    (hF : ∀ f < nf, ∀ b < nb, ∃ file, F (fftName b f) = some file ∧ ∃ B, (npLoad file).bind (assignTo xs) = some B ∧ B.Eqv (A f b)) :
    ∃ Qr, loadRank F xs nb nf ax cm (distributeDimension w ax cm).shape = some Qr ∧
      ∀ f < nf, ∀ b < nb, ∀ x, InRange (distributeDimension w ax cm).shape (x ++ [0]) →
        (Qr f b).at' (x ++ [0]) = (A f b).at' (toG ax (ext xs ax) cm x) := by
  have key : ∀ f < nf, ∃ D, cachedQ xs nb ax cm (fun b => (F (fftName b f)).getD ⟨[], fun _ => none⟩) = some D ∧
      D.shape = [size (distributeDimension w ax cm).shape, nb] ∧
      ∀ b < nb, ∀ x, InRange (distributeDimension w ax cm).shape (x ++ [0]) →
        D.at' [ravel (distributeDimension w ax cm).shape (x ++ [0]), b] = (A f b).at' (toG ax (ext xs ax) cm x) := by
    intro f hf
    obtain ⟨D, hD, hspec⟩ := cachedQ_loaded xs nb ax hax cm (A f) (hA f hf)
      (fun b => (F (fftName b f)).getD ⟨[], fun _ => none⟩) (fun b hb => by
        obtain ⟨file, e, hB⟩ := hF f hf b hb
        simp only [e, Option.getD_some]
        exact hB) hcm
    have hL : ∀ b < nb, (distributeDimension (A f b) ax cm).shape = (distributeDimension (A f 0) ax cm).shape := fun b hb =>
      dist_shape_congr (A f b) (A f 0) ((hA f hf b hb).trans (hA f hf 0 hnb).symm) ax cm
    have e := dist_one w xs hw ax hax cm (A f 0) (hA f hf 0 hnb)
    have hlen : (distributeDimension (A f 0) ax cm).shape.length = xs.length :=
      (dist_length _ ax cm).trans (congrArg List.length (hA f hf 0 hnb))
    obtain ⟨h1, h2⟩ := hspec _ hL hnb
    refine ⟨D, hD, ?_, ?_⟩
    · rw [h1, e, size_append_singleton, Nat.mul_one]
    · intro b hb x hidx
      rw [e] at hidx ⊢
      obtain ⟨x', k, hxk, hx, hk⟩ := inRange_append hidx
      obtain ⟨rfl, hk0⟩ := List.append_inj' hxk rfl
      rw [ravel_append _ _ _ _ hx (by omega), Nat.mul_one, Nat.add_zero, h2 _ (ravel_lt hx) b hb, unravel_ravel hx, dist_at]
      rw [hA f hf b hb]
  refine ⟨_, if_pos ?_, ?_⟩
  · simp only [List.all_eq_true, List.mem_range]
    intro f hf
    obtain ⟨D, h1, h2, -⟩ := key f hf
    simp only [h1, h2, decide_true]
  · intro f hf b hb x hidx
    obtain ⟨D, h1, h2, h3⟩ := key f hf
    simp only [h1]
    exact h3 b hb x hidx

/-- loading the blocks on one rank -/
theorem load_ok (ω : ℂ) (w : Arr ℝ) (xs : List Nat) (hw : w.shape = xs ++ [1]) (ax : Nat) (hax : ax < xs.length)
    (cm : Comm) (hcm : ∀ p r, cm = some (p, r) → r < p) (F : Blocks) (O : Nat → Job) (nf nb : Nat) (hnb : 0 < nb)
    (hF : ∀ f < nf, ∀ b < nb, F (fftName b f) = some (npSave (blockArr ω xs (O f) b f))) :
    ∃ Qr, loadRank F xs nb nf ax cm (distributeDimension w ax cm).shape = some Qr ∧
      ∀ f < nf, ∀ b < nb, ∀ idx, InRange (distributeDimension w ax cm).shape idx →
        (Qr f b).at' idx = (globalHat (O f).c ω (O f).files.flatten w.shape f b).at'
          (toG ax (ext w.shape ax) cm idx) := by
  obtain ⟨Qr, h1, h2⟩ := load_any w xs hw ax hax cm hcm F nf nb hnb (fun f b => blockArr ω xs (O f) b f) (fun _ _ _ _ => rfl)
    (fun f hf b hb => ⟨_, hF f hf b hb, load_assign xs _ rfl⟩)
  refine ⟨Qr, h1, fun f hf b hb idx hidx => ?_⟩
  have e := dist_one w xs hw ax hax cm (blockArr ω xs (O f) 0 f) rfl
  have hlen : (distributeDimension (blockArr ω xs (O f) 0 f) ax cm).shape.length = xs.length := dist_length _ ax cm
  have hidx' := hidx
  rw [e] at hidx'
  obtain ⟨x, k, rfl, hx, hk⟩ := inRange_append hidx'
  obtain rfl : k = 0 := by omega
  have hext : ext w.shape ax = ext xs ax := by
    rw [hw]; simp [ext, List.getD_eq_getElem?_getD, List.getElem?_append_left hax]
  rw [h2 f hf b hb x hidx, toG_snoc xs ax _ hax cm x (by rw [hx.length, hlen]), hext]
  simp only [blockArr, globalHat]

theorem list_map_range_getD (n : Nat) (g : Nat → ℂ) (k : Nat) (hk : k < n) (d : ℂ) :
    ((List.range n).map g).getD k d = g k := by
  simp [List.getD_eq_getElem?_getD, hk]

/-- saving one block -/
theorem save_ok {xs j m} (h : JobOk xs j m) (ω : ℂ) (ax : Nat) (hax : ax < xs.length) (b f : Nat) :
    blockFile j ax (j.comms.map fun cm => vecOf (distributeDimension j.w ax cm).shape
      (globalHat j.c ω (j.files.flatten.map fun a => distributeDimension a ax cm)
        (distributeDimension j.w ax cm).shape f b)) =
      some (npSave (blockArr ω xs j b f)) := by
  have hext : ext j.w.shape ax = ext xs ax := by
    rw [h.shape]; simp [ext, List.getD_eq_getElem?_getD, List.getElem?_append_left hax]
  unfold blockFile
  rw [h.xshape_eq]
  rcases hr : j.run with - | ⟨p, s⟩
  · have hc : j.comms = [none] := by simp only [Job.comms, hr]
    rw [hc]
    simp only [List.map_cons, List.map_nil, List.headD_cons, distributeDimension, List.map_id']
    unfold cacheFileSer reshapeExact
    rw [if_pos (by simp [vecOf, h.shape, size_append_singleton])]
    simp only [Option.map_some, Option.some.injEq]
    apply npSave_congr
    refine ⟨rfl, fun idx hidx => ?_⟩
    simp only [vecOf, h.shape]
    rw [list_map_range_getD _ _ _ (by rw [size_append_singleton, Nat.mul_one]; exact ravel_lt hidx)]
    rw [unravel_append_one _ _ (ravel_lt hidx), unravel_ravel hidx]
    rfl
  · obtain ⟨hp, hone, hs⟩ := h.ranks p s hr
    have hc : j.comms = (List.range p).map fun (r : Nat) => some (p, r) := by simp only [Job.comms, hr]
    rw [hc, List.map_map]
    simp only
    let n : Nat → Nat := fun r => countOf (ext xs ax) p r
    let v : Nat → List ℂ := fun r => vecOf (distributeDimension j.w ax (some (p, r))).shape
      (globalHat j.c ω (j.files.flatten.map fun a => distributeDimension a ax (some (p, r)))
        (distributeDimension j.w ax (some (p, r))).shape f b)
    have hsh : ∀ r < p, (distributeDimension j.w ax (some (p, r))).shape = xs.set ax (n r) ++ [1] := by
      intro r hr
      rw [dist_shape _ _ _ _ hr, hext, h.shape, List.set_append_left _ _ hax]
    have hoth := (size_set_pos xs ax hax h.points).1
    let g : Nat → Arr ℂ := fun r => ⟨xs.set ax (n r), fun idx => (v r).getD (ravel (xs.set ax (n r)) idx) default⟩
    have hloc : cacheLocals xs ax ((List.range p).map v) = some ((List.range p).map g) := by
      unfold cacheLocals
      rw [List.mapM_map]
      apply mapM_some
      intro r hr
      have hr := List.mem_range.1 hr
      exact reshapeInfer_ok xs ax (n r) hax hoth (v r) (by
        simp only [v, vecOf, List.length_map, List.length_range, hsh r hr, size_append_singleton, Nat.mul_one]
        exact size_set xs ax (n r) hax)
    have hv : ((fun cm => vecOf (distributeDimension j.w ax cm).shape
      (globalHat j.c ω (j.files.flatten.map fun a => distributeDimension a ax cm)
        (distributeDimension j.w ax cm).shape f b)) ∘ fun (r : Nat) => some (p, r)) = v := rfl
    rw [hv, hloc]
    simp only [Option.map_some, Option.some.injEq]
    refine saveAll_slabs (blockArr ω xs j b f) ax p hp hax s hs g fun r hr => ?_
    have e := dist_one j.w xs h.shape ax hax (some (p, r)) (blockArr ω xs j b f) rfl
    rw [hsh r hr] at e
    have e' := (List.append_inj_left e (by simp [distributeDimension, Arr.slice, blockArr]))
    refine ⟨e', fun idx hidx => ?_⟩
    simp only [g] at hidx ⊢
    simp only [v, vecOf, hsh r hr]
    rw [list_map_range_getD _ _ _ (by rw [size_append_singleton, Nat.mul_one]; exact ravel_lt hidx),
      unravel_append_one _ _ (ravel_lt hidx), unravel_ravel hidx, dist_at]
    simp only [globalHat, blockArr]
    rw [atIdx_slab j.files.flatten j.w h.acc.shapes ax p r, hext]
    have hl : idx.length = xs.length := by rw [hidx.length]; simp
    have := toG_snoc xs ax (ext xs ax) hax (some (p, r)) idx hl
    simp only [toG] at this ⊢
    rw [this]

theorem cacheItems_mem (nb nf b f : Nat) : (b, f) ∈ cacheItems nb nf ↔ b < nb ∧ f < nf := by
  simp [cacheItems]

/-- the folder after all files were written -/
theorem writeAll_at (F : Blocks) (nb nf : Nat) (file : Nat → Nat → NpyFile ℂ) (b f : Nat) :
    writeAll F nb nf file (fftName b f) = if b < nb ∧ f < nf then some (file b f) else F (fftName b f) := by
  have key : ∀ (l : List (Nat × Nat)) (F : Blocks),
      l.foldl (fun F bf => fun n => if n = fftName bf.1 bf.2 then some (file bf.1 bf.2) else F n) F (fftName b f) =
        if (b, f) ∈ l then some (file b f) else F (fftName b f) := by
    intro l
    induction l with
    | nil => intro F; simp
    | cons x l ih =>
      intro F
      rw [List.foldl_cons, ih]
      by_cases hl : (b, f) ∈ l
      · simp [hl]
      · simp only [hl, if_false, List.mem_cons, or_false]
        by_cases hx : (b, f) = x
        · subst hx; simp
        · rw [if_neg hx, if_neg]
          intro he
          obtain ⟨h1, h2⟩ := names_injective.2.2.1 _ _ _ _ he
          exact hx (Prod.ext h1 h2)
  rw [writeAll, key]
  simp only [cacheItems_mem]

theorem zip_map_same {α β γ} (l : List α) (g : α → β) (k : α → γ) :
    (l.map g).zip (l.map k) = l.map fun a => (g a, k a) := by
  induction l with
  | nil => rfl
  | cons a l ih => simp only [List.map_cons, List.zip_cons_cons, ih]

theorem zip_map_right_same {α γ} (l : List α) (k : α → γ) : l.zip (l.map k) = l.map fun a => (a, k a) := by
  have := zip_map_same l id k
  simpa using this

/-- What the folder holds, in terms of the fits that own its frequencies. -/
def Holds (ω : ℂ) (xs : List Nat) (nb : Nat) (O : Owners) (F : Blocks) : Prop :=
  ∀ f, ∀ b < nb, F (fftName b f) = (O f).map fun o => npSave (blockArr ω xs o b f)

/-- the realizations of fit `o` on the whole grid, as reported by fit `j` -/
def From (ω : ℂ) (j o : Job) (f : Nat) (out : Out j.nb) : Prop :=
  Reports j.c j.w j.solver f (rowsOf j.w.shape (globalHat o.c ω o.files.flatten j.w.shape f)) out

open Classical in
/-- one fit: effect on the folder and result -/
theorem job_step {xs j m} (h : JobOk xs j m) (ω : ℂ) (F : Blocks) (O : Owners) (hF : Holds ω xs j.nb O F) :
    Holds ω xs j.nb (ownStep O j) (fitJob ω F j).1 ∧
    ((j.reuse = true → j.savefft = true) → ∃ out, (fitJob ω F j).2 = some out ∧
      out.weights = npSave j.w ∧ out.ltm = npSave (globalLtm j.c j.nt j.files.flatten j.w) ∧
      ∀ f < j.nf, ∀ o, (if Computes O j then some j else O f) = some o → From ω j o f out) ∧
    (j.reuse = true → j.savefft = false → (fitJob ω F j).2 = none) := by
  obtain ⟨ax, hmax, hfirst, hax⟩ := h.axis
  have hnb : 0 < j.nb := by have := h.nb2; unfold Job.nb; omega
  have hfeas : feasible j.c.nDft (nBlocks j.nt j.c.nDft j.c.nOvlp) = .ok () := h.acc.blocks
  have hread : (j.comms.mapM fun cm => oneStage j.files j.w ax cm) = some (j.comms.map (partIn j ax)) :=
    mapM_some _ _ _ fun cm _ => oneStage_ok j.files j.w ax cm h.nonempty
  have hpres : ∀ f, ∀ b < j.nb, ((F (fftName b f)).isSome = true ↔ O f ≠ none) := by
    intro f b hb
    rw [hF f b hb]
    cases O f <;> simp
  have hcomp : source true true j.nb j.nf (fun n => (F n).isSome) = if Computes O {j with reuse := true} then .recompute else .cache := by
    have hc := cache_used_iff_complete_partial j.nb j.nf fun n => (F n).isSome
    split
    · rename_i hcc
      rcases hcc with hcc | ⟨f, hf, hO⟩
      · exact absurd hcc (by simp)
      · rw [hc.2.1]
        refine ⟨0, hnb, f, hf, ?_⟩
        simp only [hF f 0 hnb, hO, Option.map_none, Option.isSome_none]
    · rename_i hcc
      rw [hc.1]
      intro b hb f hf
      rw [hpres f b hb]
      intro hO
      exact hcc (Or.inr ⟨f, hf, hO⟩)
  -- the fresh realizations
  have hhats : ((j.comms.map (partIn j ax)).mapM fun r => rankHats j.c ω j.nt r.2.shape r.1) =
      some (j.comms.map fun cm => fun f b => globalHat j.c ω (j.files.flatten.map fun a => distributeDimension a ax cm)
        (distributeDimension j.w ax cm).shape f b) := by
    rw [List.mapM_map]
    apply mapM_some
    intro cm _
    have := rankHats_arr j.c ω (j.files.flatten.map fun a => distributeDimension a ax cm) (distributeDimension j.w ax cm).shape
    rw [List.length_map] at this
    exact this
  obtain ⟨out, hout, hw, hl, hrep⟩ := finish_job h ax hfirst
    (fun cm => fun f b => globalHat j.c ω (j.files.flatten.map fun a => distributeDimension a ax cm)
        (distributeDimension j.w ax cm).shape f b)
    (fun f b => globalHat j.c ω j.files.flatten j.w.shape f b) (fun _ _ => rfl)
  have hself : ∀ f, From ω j j f out := by
    intro f
    refine hrep f fun cm hcm b hb idx hidx => ?_
    rcases cm with - | ⟨p, r⟩
    · simp only [globalHat, distributeDimension, List.map_id', toG]
    · simp only [globalHat]
      rw [atIdx_slab j.files.flatten j.w h.acc.shapes ax p r idx]
      rfl
  have hfile : ∀ b f, blockFile j ax (((j.comms.map (partIn j ax)).zip (j.comms.map fun cm => fun f b =>
      globalHat j.c ω (j.files.flatten.map fun a => distributeDimension a ax cm)
        (distributeDimension j.w ax cm).shape f b)).map fun x => vecOf x.1.2.shape (x.2 f b)) =
      some (npSave (blockArr ω xs j b f)) := by
    intro b f
    rw [zip_map_same, List.map_map]
    exact save_ok h ω ax hax b f
  have hall : ((cacheItems j.nb j.nf).all fun bf => (blockFile j ax (((j.comms.map (partIn j ax)).zip (j.comms.map fun cm => fun f b =>
      globalHat j.c ω (j.files.flatten.map fun a => distributeDimension a ax cm)
        (distributeDimension j.w ax cm).shape f b)).map fun x => vecOf x.1.2.shape (x.2 bf.2 bf.1))).isSome) = true := by
    simp only [hfile, Option.isSome_some, List.all_eq_true, implies_true]
  have hfin : finish j.c j.nt j.solver j.sched ax ((j.comms.map (partIn j ax)).zip (j.comms.map fun cm => fun f b =>
      globalHat j.c ω (j.files.flatten.map fun a => distributeDimension a ax cm)
        (distributeDimension j.w ax cm).shape f b)) = some out := by
    rw [zip_map_same]
    exact hout
  -- the fit that computes its blocks
  have hre : source j.reuse j.savefft j.nb j.nf (fun n => (F n).isSome) = .recompute →
      fitJob ω F j = (if j.savefft = true then writeAll F j.nb j.nf fun b f => npSave (blockArr ω xs j b f) else F, some out) := by
    intro hs
    unfold fitJob
    simp only [hmax, hfeas, h.acc.mean, hread, hs, hhats]
    rw [if_pos hall]
    simp only [hfile, Option.getD_some, hfin]
    by_cases hsv : j.savefft = true
    · simp only [if_pos hsv]; rfl
    · simp only [if_neg hsv]; rfl
  have hown : Computes O j → Holds ω xs j.nb (ownStep O j)
      (if j.savefft = true then writeAll F j.nb j.nf fun b f => npSave (blockArr ω xs j b f) else F) := by
    intro hc f b hb
    by_cases hsv : j.savefft = true
    · rw [if_pos hsv, writeAll_at]
      simp only [ownStep, hsv, hc, and_self, if_true, hb, true_and]
      by_cases hf : f < j.nf
      · simp only [hf, if_true, Option.map_some]
      · simp only [hf, if_false]
        exact hF f b hb
    · rw [if_neg hsv]
      simp only [ownStep, hsv, false_and, if_false, Bool.false_eq_true]
      exact hF f b hb
  cases hru : j.reuse with
  | false =>
    have hs : source j.reuse j.savefft j.nb j.nf (fun n => (F n).isSome) = .recompute := by rw [hru]; rfl
    have hc : Computes O j := Or.inl hru
    rw [hre hs]
    refine ⟨hown hc, fun _ => ⟨out, rfl, hw, hl, ?_⟩, fun hcon => by simp at hcon⟩
    intro f hf o ho
    rw [if_pos hc] at ho
    obtain rfl := Option.some.inj ho
    exact hself f
  | true =>
    cases hsv : j.savefft with
    | false =>
      have hs : source j.reuse j.savefft j.nb j.nf (fun n => (F n).isSome) = .attributeError := by rw [hru, hsv]; rfl
      have hj : fitJob ω F j = (F, none) := by
        unfold fitJob
        simp only [hmax, hfeas, h.acc.mean, hread, hs]
      rw [hj]
      refine ⟨?_, fun hcon => by simp at hcon, fun _ _ => rfl⟩
      simp only [ownStep, hsv, false_and, if_false, Bool.false_eq_true]
      exact hF
    | true =>
      have hcc : Computes O {j with reuse := true} ↔ Computes O j := by
        unfold Computes
        rw [hru]
        rfl
      by_cases hc : Computes O j
      · have hs : source j.reuse j.savefft j.nb j.nf (fun n => (F n).isSome) = .recompute := by
          rw [hru, hsv, hcomp, if_pos (hcc.2 hc)]
        rw [hre hs]
        refine ⟨hown hc, fun _ => ⟨out, rfl, hw, hl, ?_⟩, fun _ hcon => by simp at hcon⟩
        intro f hf o ho
        rw [if_pos hc] at ho
        obtain rfl := Option.some.inj ho
        exact hself f
      · have hs : source j.reuse j.savefft j.nb j.nf (fun n => (F n).isSome) = .cache := by
          rw [hru, hsv, hcomp, if_neg (hcc.not.2 hc)]
        -- the owners
        let o : Nat → Job := fun f => (O f).getD j
        have ho : ∀ f < j.nf, O f = some (o f) := by
          intro f hf
          cases hO : O f with
          | none => exact absurd (Or.inr ⟨f, hf, hO⟩) hc
          | some x => simp only [o, hO, Option.getD_some]
        have hFo : ∀ f < j.nf, ∀ b < j.nb, F (fftName b f) = some (npSave (blockArr ω xs (o f) b f)) := by
          intro f hf b hb
          rw [hF f b hb, ho f hf, Option.map_some]
        have hQ : ∀ cm : Comm, ∃ Qr, cm ∈ j.comms → loadRank F xs j.nb j.nf ax cm (distributeDimension j.w ax cm).shape = some Qr ∧
            ∀ f < j.nf, ∀ b < j.nb, ∀ idx, InRange (distributeDimension j.w ax cm).shape idx →
              (Qr f b).at' idx = (globalHat (o f).c ω (o f).files.flatten j.w.shape f b).at' (toG ax (ext j.w.shape ax) cm idx) := by
          intro cm
          by_cases hcm : cm ∈ j.comms
          · obtain ⟨Qr, h1⟩ := load_ok ω j.w xs h.shape ax hax cm (fun p r e => (comms_valid j cm hcm p r e).1) F o j.nf j.nb hnb hFo
            exact ⟨Qr, fun _ => h1⟩
          · exact ⟨fun _ _ => ⟨[], fun _ => 0⟩, fun hh => absurd hh hcm⟩
        choose Qr hQr using hQ
        have hload : ((j.comms.zip (j.comms.map (partIn j ax))).mapM fun x =>
            loadRank F j.xshape j.nb j.nf ax x.1 x.2.2.shape) = some (j.comms.map Qr) := by
          rw [zip_map_right_same, List.mapM_map, h.xshape_eq]
          exact mapM_some _ _ _ fun cm hcm => (hQr cm hcm).1
        obtain ⟨out', hout', hw', hl', hrep'⟩ := finish_job h ax hfirst Qr
          (fun f b => globalHat (o f).c ω (o f).files.flatten j.w.shape f b) (fun _ _ => rfl)
        have hj : fitJob ω F j = (F, some out') := by
          unfold fitJob
          simp only [hmax, hfeas, h.acc.mean, hread, hs, hload]
          rw [zip_map_same]
          exact congrArg (Prod.mk F) hout'
        rw [hj]
        refine ⟨?_, fun _ => ⟨out', rfl, hw', hl', ?_⟩, fun _ hcon => by simp at hcon⟩
        · simp only [ownStep, hc, and_false, if_false]
          exact hF
        · intro f hf x hx
          rw [if_neg hc, ho f hf] at hx
          obtain rfl := Option.some.inj hx
          exact hrep' f fun cm hcm b hb idx hidx => (hQr cm hcm).2 f hf b hb idx hidx

/-! ### C193: histories -/

theorem foldl_snoc_holds (ω : ℂ) (xs : List Nat) (nb : Nat) (js : List Job)
    (hok : ∀ x ∈ js, ∃ m, JobOk xs x m) (hnb : ∀ x ∈ js, x.nb = nb) (F : Blocks) (O : Owners) (hF : Holds ω xs nb O F) :
    Holds ω xs nb (js.foldl ownStep O) (js.foldl (fun F j => (fitJob ω F j).1) F) := by
  induction js generalizing F O with
  | nil => exact hF
  | cons j js ih =>
    obtain ⟨m, h⟩ := hok j (by simp)
    have e := hnb j (by simp)
    rw [List.foldl_cons, List.foldl_cons]
    refine ih (fun x hx => hok x (by simp [hx])) (fun x hx => hnb x (by simp [hx])) _ _ ?_
    have := (job_step h ω F O (by rw [e]; exact hF)).1
    exact fun f b hb => this f b (lt_of_lt_of_eq hb e.symm)

/-- an owner is one of the fits, saved its blocks, and has that frequency -/
theorem owners_mem (js : List Job) (f : Nat) (o : Job) (h : ownersAfter js f = some o) :
    o ∈ js ∧ o.savefft = true ∧ f < o.nf := by
  have key : ∀ (js : List Job) (O : Owners), js.foldl ownStep O f = some o → (o ∈ js ∧ o.savefft = true ∧ f < o.nf) ∨ O f = some o := by
    intro js
    induction js with
    | nil => intro O hO; exact Or.inr hO
    | cons j js ih =>
      intro O hO
      rw [List.foldl_cons] at hO
      rcases ih _ hO with ⟨h1, h2⟩ | h1
      · exact Or.inl ⟨by simp [h1], h2⟩
      · unfold ownStep at h1
        split at h1
        · rename_i hc
          simp only at h1
          split at h1
          · rename_i hf
            obtain rfl := Option.some.inj h1
            exact Or.inl ⟨by simp, hc.1, hf⟩
          · exact Or.inr h1
        · exact Or.inr h1
  rcases key js _ h with h | h
  · exact h
  · simp at h

/-- **C193 (exact).** Any sequence of fits in one results folder, each with its own data, settings, weights, number of ranks
    and write order, with or without `savefft` and `reuse_blocks`: the next fit succeeds; its weights and mean files are its own;
    its eigenvalues and modes at every frequency are the weighted SPOD (with its own weights) of the windowed transforms of the
    data of the fit `usedBy` says - which may be an earlier one, with other data, window and mean. -/
theorem reuse_exact (ω : ℂ) (xs : List Nat) (js : List Job) (j : Job)
    (hok : ∀ x ∈ js ++ [j], ∃ m, JobOk xs x m) (hnb : ∀ x ∈ js, x.nb = j.nb)
    (hrs : j.reuse = true → j.savefft = true) :
    ∃ out, (fitJob ω (blocksAfter ω js) j).2 = some out ∧ out.weights = npSave j.w ∧
      out.ltm = npSave ⟨j.w.shape, fun idx => (atIdx idx j.files.flatten).sum / j.files.flatten.length⟩ ∧
      ∀ f < j.nf, ∃ o m, usedBy js j f = some o ∧ o ∈ js ++ [j] ∧ f < o.nf ∧ JobOk xs o m ∧
        Reports j.c j.w j.solver f (specQ o.c m ω o.files.flatten j.w.shape j.nb f) out := by
  classical
  obtain ⟨m, h⟩ := hok j (by simp)
  have hH := foldl_snoc_holds ω xs j.nb js (fun x hx => hok x (by simp [hx])) hnb (fun _ => none) (fun _ => none)
    (fun f b hb => rfl)
  obtain ⟨out, h1, h2, h3, h4⟩ := (job_step h ω _ _ hH).2.1 hrs
  refine ⟨out, h1, h2, ?_, ?_⟩
  · rw [h3]
    apply npSave_congr
    refine ⟨rfl, fun idx _ => ?_⟩
    simp only [globalLtm]
    have := h.nb2
    rw [long_time_mean_array _ (by unfold Job.nt; omega), smul_eq_mul, div_eq_inv_mul]
    simp only [atIdx, List.length_map]
  · intro f hf
    have hu : ∃ o, usedBy js j f = some o ∧ o ∈ js ++ [j] ∧ f < o.nf := by
      unfold usedBy
      split
      · exact ⟨j, rfl, by simp, hf⟩
      · rename_i hc
        cases hO : ownersAfter js f with
        | none => exact absurd (Or.inr ⟨f, hf, hO⟩) hc
        | some o =>
          have := owners_mem js f o hO
          exact ⟨o, rfl, by simp [this.1], this.2.2⟩
    obtain ⟨o, hu, hmem, hfo⟩ := hu
    obtain ⟨m', ho⟩ := hok o hmem
    refine ⟨o, m', hu, hmem, hfo, ho, ?_⟩
    have hrep := h4 f hf o hu
    unfold From at hrep
    have hnbo : fitNb o.c o.files.flatten.length = j.nb := by
      rcases List.mem_append.1 hmem with hx | hx
      · exact hnb o hx
      · obtain rfl := List.mem_singleton.1 hx; rfl
    have e : rowsOf (nb := j.nb) j.w.shape (globalHat o.c ω o.files.flatten j.w.shape f) =
        specQ o.c m' ω o.files.flatten j.w.shape j.nb f := by
      ext k b
      simp only [rowsOf, specQ, Matrix.of_apply, globalHat]
      refine pointHat_spec o.c m' ho.acc.mean ω _ ho.acc.window (feasible_nb o.c _ ho.acc.blocks).2 ho.acc.overlap f b ?_ hfo
      simp only [atIdx, List.length_map, hnbo]
      exact b.2
    exact (congrArg (fun Q => Reports j.c (nb := j.nb) j.w j.solver f Q out) e).mp hrep

/-- The two fits have the same snapshots and the same settings of the blocks (window, overlap, mean, normalization); they may
    differ in weights, spectrum (one- or two-sided), number of saved modes, ranks, splitting of the snapshots into data sets. -/
structure SameInput (a b : Job) : Prop where
  data : a.files.flatten = b.files.flatten
  nDft : a.c.nDft = b.c.nDft
  nOvlp : a.c.nOvlp = b.c.nOvlp
  win : a.c.win = b.c.win
  mean : a.c.meanType = b.c.meanType
  normalize : a.c.normalize = b.c.normalize
  eps4 : a.c.eps4 = b.c.eps4

/-- **C193 (partial).** As long as every fit in the folder has the same snapshots and the same settings of the blocks, a fit
    after any sequence of fits - with any weights, numbers of ranks, spectra, and any use of `savefft` and `reuse_blocks` - leaves
    the same eigenvalues, modes, weights and mean as the serial fit without cache.
    Missing (false, see `reuse_other_data_fails`, `reuse_exact`): other data or other settings of the blocks. -/
theorem reuse_same_input_partial (ω : ℂ) (xs : List Nat) (js : List Job) (j : Job)
    (hok : ∀ x ∈ js ++ [j], ∃ m, JobOk xs x m) (hsame : ∀ x ∈ js, SameInput x j)
    (hrs : j.reuse = true → j.savefft = true) :
    ∃ out out0, (fitJob ω (blocksAfter ω js) j).2 = some out ∧ fitSerial j.c ω j.files j.w j.solver = some out0 ∧
      out.weights = out0.weights ∧ out.ltm = out0.ltm ∧
      ∀ f < j.nf, out.eigs f = out0.eigs f ∧ out.modes f = out0.modes f := by
  have hnb : ∀ x ∈ js, x.nb = j.nb := by
    intro x hx
    have s := hsame x hx
    unfold Job.nb fitNb
    rw [s.data, s.nDft, s.nOvlp]
  obtain ⟨m, h⟩ := hok j (by simp)
  obtain ⟨out, h1, h2, h3, h4⟩ := reuse_exact ω xs js j hok hnb hrs
  have h0 := serial_out j.c ω j.files j.w h.acc.shapes h.acc.axes m h.acc.mean h.acc.blocks h.acc.overlap j.solver h.acc.many
  refine ⟨out, _, h1, h0, h2, ?_, ?_⟩
  · rw [h3]
    apply npSave_congr
    refine ⟨rfl, fun idx _ => ?_⟩
    have := h.nb2
    simp only
    rw [long_time_mean_array _ (by omega), smul_eq_mul, div_eq_inv_mul]
    simp only [atIdx, List.length_map]
  · intro f hf
    obtain ⟨o, m', hu, hmem, hfo, ho, hrep⟩ := h4 f hf
    have hso : SameInput o j := by
      rcases List.mem_append.1 hmem with hx | hx
      · exact hsame o hx
      · obtain rfl := List.mem_singleton.1 hx
        exact ⟨rfl, rfl, rfl, rfl, rfl, rfl, rfl⟩
    have hmm : m' = m := by
      have e1 := ho.acc.mean
      rw [hso.mean, h.acc.mean] at e1
      exact (Except.ok.inj e1).symm
    subst hmm
    have e : specQ o.c m' ω o.files.flatten j.w.shape j.nb f =
        rowsOf (nb := j.nb) j.w.shape (globalHat j.c ω j.files.flatten j.w.shape f) := by
      ext k b
      simp only [rowsOf, specQ, Matrix.of_apply, globalHat]
      have hp := pointHat_spec j.c m' h.acc.mean ω (atIdx (unravel j.w.shape k) j.files.flatten) h.acc.window
        (feasible_nb j.c _ h.acc.blocks).2 h.acc.overlap f b (by simp only [atIdx, List.length_map]; exact b.2) hf
      rw [hp]
      simp only [specHat, hso.data, hso.nDft, hso.nOvlp, hso.win, hso.normalize, hso.eps4]
      rfl
    have hrep' := (congrArg (fun Q => Reports j.c (nb := j.nb) j.w j.solver f Q out) e).mp hrep
    exact ⟨hrep'.1, hrep'.2⟩

/-- **C193 (violated).** Energy: after fits `js`, the reported eigenvalues of a fit with a correct eigen-solver add up to the
    energy of the data of the fit whose blocks are in the folder, not of its own data. -/
theorem reuse_energy_exact (ω : ℂ) (xs : List Nat) (js : List Job) (j : Job)
    (hok : ∀ x ∈ js ++ [j], ∃ m, JobOk xs x m) (hnb : ∀ x ∈ js, x.nb = j.nb)
    (hrs : j.reuse = true → j.savefft = true) (hs : SolverFull j.solver) :
    ∃ out, (fitJob ω (blocksAfter ω js) j).2 = some out ∧
      ∀ f < j.nf, ∃ o m, usedBy js j f = some o ∧ JobOk xs o m ∧
        ∑ k, out.eigs f k = oneSidedFactor j.c.isreal j.nf f * ((j.nb : ℝ)⁻¹ * ∑ b : Fin j.nb, ∑ x : Fin (size j.w.shape),
          specW j.w x * Complex.normSq (specHat o.c m ω (atIdx (unravel j.w.shape x) o.files.flatten) f b)) := by
  obtain ⟨m, h⟩ := hok j (by simp)
  obtain ⟨out, h1, h2, h3, h4⟩ := reuse_exact ω xs js j hok hnb hrs
  refine ⟨out, h1, fun f hf => ?_⟩
  obtain ⟨o, m', hu, hmem, hfo, ho, hrep⟩ := h4 f hf
  refine ⟨o, m', hu, ho, ?_⟩
  have hw : ∀ x, 0 ≤ specW j.w x := fun x => h.acc.weights _ (inRange_unravel x.2)
  have hM := (crossSpectral_posSemidef (specQ o.c m' ω o.files.flatten j.w.shape j.nb f) (specW j.w) hw).1
  have := total_energy_reported (specQ o.c m' ω o.files.flatten j.w.shape j.nb f) (specW j.w) hw _ _ (hs _ hM).1 (hs _ hM).2.1
    (j.solver (crossSpectral (specQ o.c m' ω o.files.flatten j.w.shape j.nb f) (specW j.w))).2.2
    (oneSidedFactor j.c.isreal j.nf f)
  rw [hrep.1]
  exact this

/-! ### C194: one source -/

/-- **C194 (partial).** If every fit that does not reuse blocks has at least as many frequencies as the fits before it, then all
    frequencies of a fit come from the data of one fit.
    Missing (false, see `reuse_mixes_fails`): a fit without `reuse_blocks` and with fewer frequencies in between. -/
theorem one_source_partial (js : List Job) (j : Job)
    (hmono : ∀ pre x post, js = pre ++ x :: post → x.reuse = false → ∀ y ∈ pre, y.nf ≤ x.nf) :
    ∃ o, ∀ f < j.nf, usedBy js j f = some o := by
  classical
  have key : ∀ js : List Job, (∀ pre x post, js = pre ++ x :: post → x.reuse = false → ∀ y ∈ pre, y.nf ≤ x.nf) →
      (∀ f, ownersAfter js f = none) ∨ ∃ o ∈ js, ∀ f, ownersAfter js f = if f < o.nf then some o else none := by
    intro js
    induction js using List.reverseRecOn with
    | nil => intro _; exact Or.inl fun _ => rfl
    | append_singleton l x ih =>
      intro hm
      have hstep : ownersAfter (l ++ [x]) = ownStep (ownersAfter l) x := by simp [ownersAfter]
      have ih' := ih fun pre y post he hy z hz => hm pre y (post ++ [x]) (by rw [he]; simp) hy z hz
      rw [hstep]
      unfold ownStep
      split
      · rename_i hc
        refine Or.inr ⟨x, by simp, fun f => ?_⟩
        by_cases hf : f < x.nf
        · simp [hf]
        · simp only [hf, if_false]
          rcases ih' with h0 | ⟨o, ho, h0⟩
          · exact h0 f
          · rw [h0 f, if_neg]
            have hle : o.nf ≤ x.nf := by
              rcases hc.2 with hr | ⟨f', hf', hO⟩
              · exact hm l x [] (by simp) hr o ho
              · rw [h0 f'] at hO
                by_contra hcon
                rw [if_pos (by omega)] at hO
                simp at hO
            omega
      · rcases ih' with h0 | ⟨o, ho, h0⟩
        · exact Or.inl h0
        · exact Or.inr ⟨o, by simp [ho], h0⟩
  by_cases hc : Computes (ownersAfter js) j
  · exact ⟨j, fun f _ => by unfold usedBy; rw [if_pos hc]⟩
  · rcases key js hmono with h0 | ⟨o, -, h0⟩
    · refine ⟨j, fun f hf => absurd (Or.inr ⟨f, hf, h0 f⟩) hc⟩
    · refine ⟨o, fun f hf => ?_⟩
      unfold usedBy
      rw [if_neg hc, h0 f, if_pos]
      by_contra hcon
      exact hc (Or.inr ⟨f, hf, by rw [h0 f, if_neg hcon]⟩)

/-- **C194 (corollary).** If all fits in the folder reuse and save blocks and have the same frequencies, every fit after the
    first works from the data of the first. -/
theorem reuse_first_fit (j0 : Job) (js : List Job) (j : Job) (h0 : j0.savefft = true) (hpos : 0 < j0.nf)
    (hre : ∀ x ∈ js ++ [j], x.reuse = true ∧ x.nf = j0.nf) (f : Nat) (hf : f < j.nf) :
    usedBy (j0 :: js) j f = some j0 := by
  classical
  have key : ∀ (js : List Job) (O : Owners), (∀ f < j0.nf, O f = some j0) → (∀ x ∈ js, x.reuse = true ∧ x.nf = j0.nf) →
      ∀ f < j0.nf, js.foldl ownStep O f = some j0 := by
    intro js
    induction js with
    | nil => intro O hO _; exact hO
    | cons x js ih =>
      intro O hO hx
      rw [List.foldl_cons]
      have hstep : ownStep O x = O := by
        unfold ownStep
        rw [if_neg]
        rintro ⟨-, hr | ⟨f', hf', hn⟩⟩
        · rw [(hx x (by simp)).1] at hr; simp at hr
        · rw [hO f' (by rw [← (hx x (by simp)).2]; exact hf')] at hn; simp at hn
      rw [hstep]
      exact ih O hO fun y hy => hx y (by simp [hy])
  have hfirst : ∀ f < j0.nf, ownStep (fun _ => none) j0 f = some j0 := by
    intro f hf
    unfold ownStep
    rw [if_pos ⟨h0, Or.inr ⟨0, hpos, rfl⟩⟩, if_pos hf]
  have hall := key js _ hfirst fun x hx => hre x (by simp [hx])
  have hj := hre j (by simp)
  unfold usedBy
  have hO : ∀ f < j0.nf, ownersAfter (j0 :: js) f = some j0 := hall
  rw [if_neg]
  · exact hO f (by rw [← hj.2]; exact hf)
  · rintro (hr | ⟨f', hf', hn⟩)
    · rw [hj.1] at hr; simp at hr
    · rw [hO f' (by rw [← hj.2]; exact hf')] at hn; simp at hn

/-- **C194 (violated).** A fit with the full spectrum, then a fit with the half spectrum without `reuse_blocks`, then a fit with the
    full spectrum that reuses blocks: its low frequencies come from the data of the second, the others from the data of the
    first. -/
theorem reuse_mixes_fails (o1 o2 j : Job) (h1 : o1.savefft = true) (h2 : o2.savefft = true) (hr1 : 0 < o1.nf)
    (hr2 : o2.reuse = false) (hj : j.reuse = true) (hn : j.nf = o1.nf) (f : Nat) (hf : f < j.nf) :
    usedBy [o1, o2] j f = some (if f < o2.nf then o2 else o1) := by
  classical
  have e1 : ownStep (fun _ => none) o1 = fun f => if f < o1.nf then some o1 else none := by
    unfold ownStep
    rw [if_pos ⟨h1, Or.inr ⟨0, hr1, rfl⟩⟩]
  have e2 : ownersAfter [o1, o2] = fun f => if f < o2.nf then some o2 else if f < o1.nf then some o1 else none := by
    unfold ownersAfter
    simp only [List.foldl_cons, List.foldl_nil, e1]
    unfold ownStep
    rw [if_pos ⟨h2, Or.inl hr2⟩]
  have hO : ∀ f < j.nf, ownersAfter [o1, o2] f = some (if f < o2.nf then o2 else o1) := by
    intro f hf
    simp only [e2]
    split
    · rfl
    · rw [if_pos (by omega)]
  unfold usedBy
  rw [if_neg, hO f hf]
  rintro (hr | ⟨f', hf', hx⟩)
  · rw [hj] at hr; simp at hr
  · rw [hO f' hf'] at hx; simp at hx

/-! ### Examples -/

/-- eight snapshots of `±a` on a grid of four points -/
def waveFiles (a : ℝ) : List (List (Arr ℝ)) := [(List.range 8).map fun (t : Nat) => ⟨[4, 1], fun _ => a * (-1) ^ t⟩]
def waveWeights : Arr ℝ := ⟨[4, 1], fun _ => 1⟩

/-- a fit of these snapshots with a correct eigen-solver -/
noncomputable def waveJob (a : ℝ) (full savefft reuse : Bool)
    (run : Option (Nat × ((α : Type) → List (Write α) → List (Write α)))) : Job :=
  { c := { swingCfg with full := full }, files := waveFiles a, w := waveWeights
    solver := Classical.choose (solver_full_exists _), savefft := savefft, reuse := reuse, run := run }

theorem wave_ok (a : ℝ) (full savefft reuse : Bool) (run : Option (Nat × ((α : Type) → List (Write α) → List (Write α))))
    (hrun : ∀ p s, run = some (p, s) → p = 2 ∧ ∀ β l, (s β l).Perm l) :
    JobOk [4] (waveJob a full savefft reuse run) .zero where
  acc := {
    shapes := by
      intro x hx
      simp only [waveJob, waveFiles, List.flatten_cons, List.flatten_nil, List.append_nil, List.mem_map] at hx
      obtain ⟨t, -, rfl⟩ := hx
      rfl
    axes := by simp [waveJob, waveWeights]
    mean := swing_accepted.mean
    blocks := by
      simp only [waveJob, waveFiles, List.flatten_cons, List.flatten_nil, List.append_nil, List.length_map, List.length_range]
      cases full <;> decide
    overlap := by simp [waveJob, swingCfg]
    window := rfl
    weights := fun x _ => zero_le_one
    many := by simp [waveJob, waveWeights, size] }
  shape := rfl
  axes := by simp
  points := by simp [size]
  ranks := by
    intro p s hr
    obtain ⟨rfl, hs⟩ := hrun p s hr
    refine ⟨by omega, ?_, hs⟩
    intro ax hax r hr
    have : ax = 0 := by
      by_contra hne
      have h1 := hax.1
      have h2 := hax.2.2 0 (by omega)
      simp only [waveJob, waveWeights, List.length_cons, List.length_nil] at h1 h2
      obtain rfl : ax = 1 := by omega
      simp at h2
    subst this
    simp only [waveJob, waveWeights]
    interval_cases r <;> decide

theorem wave_nb (a a' : ℝ) (full savefft reuse full' savefft' reuse' : Bool) (run run') :
    (waveJob a full savefft reuse run).nb = (waveJob a' full' savefft' reuse' run').nb := by
  simp only [Job.nb, waveJob, waveFiles, List.flatten_cons, List.flatten_nil, List.append_nil, List.length_map, List.length_range]
  rfl

theorem wave_hat (a : ℝ) (full : Bool) (x : List Nat) (b : Nat) (hb : b < 2) :
    specHat { swingCfg with full := full } .zero (-Complex.I) (atIdx x (waveFiles a).flatten) 2 b = a := by
  have hu : atIdx x (waveFiles a).flatten = [a, -a, a, -a, a, -a, a, -a] := by
    norm_num [waveFiles, List.range_succ, atIdx]
  have e2 : ∀ t : Nat, (-Complex.I) ^ (t * 2) = (-1 : ℂ) ^ t := by
    intro t
    rw [mul_comm, pow_mul]
    congr 1
    rw [neg_sq, Complex.I_sq]
  rw [hu]
  simp only [specHat, e2, specNorm, specFluct, swingCfg, Bool.false_eq_true, if_false]
  interval_cases b <;> simp [Finset.sum_range_succ] <;> ring

/-- **C193 (violated).** Second fit, with other snapshots, `savefft` and `reuse_blocks`, in the folder of the first: it succeeds
    and reports zero energy for snapshots that have some, while its mean file is that of the new snapshots. -/
theorem reuse_other_data_fails :
    let j0 := waveJob 0 false true true none
    let j := waveJob 1 false true true none
    ∃ out out0, (fitJob (-Complex.I) (blocksAfter (-Complex.I) [j0]) j).2 = some out ∧
      fitSerial j.c (-Complex.I) j.files j.w j.solver = some out0 ∧ out.eigs 2 ≠ out0.eigs 2 ∧ out.ltm = out0.ltm := by
  intro j0 j
  have ok0 : JobOk [4] j0 .zero := wave_ok 0 false true true none (by simp)
  have ok1 : JobOk [4] j .zero := wave_ok 1 false true true none (by simp)
  have hnb2 : j.nb = 2 := by
    simp only [j, Job.nb, waveJob, waveFiles, List.flatten_cons, List.flatten_nil, List.append_nil, List.length_map, List.length_range]
    decide
  have hs : SolverFull j.solver := Classical.choose_spec (solver_full_exists _)
  have hf : 2 < j.nf := by simp [j, Job.nf, waveJob, swingCfg, nFreq]
  have hall : ∀ x ∈ [j0] ++ [j], ∃ m, JobOk [4] x m := by
    intro x hx
    rcases List.mem_append.1 hx with h | h
    · obtain rfl := List.mem_singleton.1 h; exact ⟨_, ok0⟩
    · obtain rfl := List.mem_singleton.1 h; exact ⟨_, ok1⟩
  have hone : ∀ x ∈ [] ++ [j], ∃ m, JobOk [4] x m := by
    intro x hx
    obtain rfl := List.mem_singleton.1 hx
    exact ⟨_, ok1⟩
  have hn0 : ∀ x ∈ [j0], x.nb = j.nb := by
    intro x hx
    obtain rfl := List.mem_singleton.1 hx
    exact wave_nb ..
  obtain ⟨out, r1, e1⟩ := reuse_energy_exact (-Complex.I) [4] [j0] j hall hn0 (fun _ => rfl) hs
  obtain ⟨out', r1', -, l1, -⟩ := reuse_exact (-Complex.I) [4] [j0] j hall hn0 (fun _ => rfl)
  obtain rfl : out = out' := Option.some.inj (r1.symm.trans r1')
  obtain ⟨out2, r2, e2⟩ := reuse_energy_exact (-Complex.I) [4] [] j hone (by simp) (fun _ => rfl) hs
  obtain ⟨out2', out0, r2', r0, -, l2, e0⟩ := reuse_same_input_partial (-Complex.I) [4] [] j hone (by simp) (fun _ => rfl)
  obtain rfl : out2 = out2' := Option.some.inj (r2.symm.trans r2')
  obtain ⟨out2'', r2'', -, l2', -⟩ := reuse_exact (-Complex.I) [4] [] j hone (by simp) (fun _ => rfl)
  obtain rfl : out2 = out2'' := Option.some.inj (r2.symm.trans r2'')
  refine ⟨out, out0, r1, r0, ?_, ?_⟩
  · intro heq
    obtain ⟨o, m, hu, ho, hsum⟩ := e1 2 hf
    obtain ⟨o2, m2, hu2, ho2, hsum2⟩ := e2 2 hf
    have hu' := reuse_first_fit j0 [] j rfl (by simp [j0, Job.nf, waveJob, swingCfg, nFreq]) (by
      intro x hx
      obtain rfl := List.mem_singleton.1 hx
      exact ⟨rfl, rfl⟩) 2 hf
    obtain rfl : o = j0 := Option.some.inj (hu.symm.trans hu')
    have hu2' : usedBy [] j 2 = some j := by
      unfold usedBy
      rw [if_pos]
      exact Or.inr ⟨2, hf, rfl⟩
    obtain rfl : o2 = j := Option.some.inj (hu2.symm.trans hu2')
    have hm : m = .zero := Except.ok.inj (ho.acc.mean.symm.trans ok0.acc.mean)
    have hm2 : m2 = .zero := Except.ok.inj (ho2.acc.mean.symm.trans ok1.acc.mean)
    subst hm hm2
    have z1 : ∑ k, out.eigs 2 k = 0 := by
      rw [hsum]
      have : ∀ (b : Fin j.nb) (x : Fin (size j.w.shape)),
          specHat j0.c .zero (-Complex.I) (atIdx (unravel j.w.shape x) j0.files.flatten) 2 b = 0 := by
        intro b x
        refine (wave_hat 0 false _ b (by have := b.2; omega)).trans (by simp)
      simp only [this, map_zero, mul_zero, Finset.sum_const_zero]
    have z2 : 0 < ∑ k, out2.eigs 2 k := by
      rw [hsum2]
      have : ∀ (b : Fin j.nb) (x : Fin (size j.w.shape)),
          specHat j.c .zero (-Complex.I) (atIdx (unravel j.w.shape x) j.files.flatten) 2 b = 1 := by
        intro b x
        refine (wave_hat 1 false _ b (by have := b.2; omega)).trans (by simp)
      simp only [this, map_one, mul_one]
      have hfac : (oneSidedFactor j.c.isreal j.nf 2 : ℝ) = 1 := by simp [oneSidedFactor, j, Job.nf, waveJob, swingCfg, nFreq]
      rw [hfac, one_mul]
      have hw : ∀ x : Fin (size j.w.shape), specW j.w x = 1 := fun _ => rfl
      have hsz : size j.w.shape = 4 := rfl
      simp only [hw, Finset.sum_const, Finset.card_univ, Fintype.card_fin, hsz, hnb2]
      norm_num
    have h12 : out2.eigs 2 = out.eigs 2 := (e0 2 hf).1.trans heq.symm
    rw [h12, z1] at z2
    exact lt_irrefl _ z2
  · rw [← l2, l1, l2']

/-- non-vacuity of `reuse_same_input_partial`: three fits of the same snapshots - serial with the full spectrum, on two ranks
    without reuse, on two ranks (writing in reverse order) with reuse -/
example : ∃ out out0, (fitJob (-Complex.I) (blocksAfter (-Complex.I)
      [waveJob 1 true true false none, waveJob 1 false true false (some (2, fun _ l => l))])
      (waveJob 1 true true true (some (2, fun _ l => l.reverse)))).2 = some out ∧
    fitSerial { swingCfg with full := true } (-Complex.I) (waveFiles 1) waveWeights
      (waveJob 1 true true true (some (2, fun _ l => l.reverse))).solver = some out0 ∧
    ∀ f < 4, out.eigs f = out0.eigs f ∧ out.modes f = out0.modes f := by
  obtain ⟨out, out0, h1, h2, -, -, h3⟩ := reuse_same_input_partial (-Complex.I) [4]
    [waveJob 1 true true false none, waveJob 1 false true false (some (2, fun _ l => l))]
    (waveJob 1 true true true (some (2, fun _ l => l.reverse))) (by
      intro x hx
      refine ⟨.zero, ?_⟩
      simp only [List.cons_append, List.nil_append, List.mem_cons, List.not_mem_nil, or_false] at hx
      rcases hx with rfl | rfl | rfl
      · exact wave_ok _ _ _ _ _ (by simp)
      · exact wave_ok _ _ _ _ _ (by
          intro p s h; cases h; exact ⟨rfl, fun _ _ => List.Perm.refl _⟩)
      · exact wave_ok _ _ _ _ _ (by
          intro p s h; cases h; exact ⟨rfl, fun _ _ => List.reverse_perm _⟩)) (by
      intro x hx
      simp only [List.mem_cons, List.not_mem_nil, or_false] at hx
      rcases hx with rfl | rfl <;> exact ⟨rfl, rfl, rfl, rfl, rfl, rfl, rfl⟩) (fun _ => rfl)
  exact ⟨out, out0, h1, h2, h3⟩

/-- non-vacuity of `reuse_mixes_fails` -/
example : usedBy [waveJob 1 true true true none, waveJob 2 false true false none] (waveJob 3 true true true none) 1 =
      some (waveJob 2 false true false none) ∧
    usedBy [waveJob 1 true true true none, waveJob 2 false true false none] (waveJob 3 true true true none) 3 =
      some (waveJob 1 true true true none) := by
  have h := reuse_mixes_fails (waveJob 1 true true true none) (waveJob 2 false true false none) (waveJob 3 true true true none)
    rfl rfl (by decide) rfl rfl rfl
  exact ⟨h 1 (by decide), h 3 (by decide)⟩

end Verif.Props
