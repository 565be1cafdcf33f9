import Verif.Props.StreamFit
import Verif.Props.FitFiles
/-
  C67, C68 end to end: exactly when a fit of array data succeeds, on one process and on any number of ranks.
-/
namespace Verif.Props
open Verif Verif.Par Verif.Rd Verif.Spod Verif.Fit Verif.SFit

/-- What every fit demands of its options: a recognised mean, at least four snapshots per block, and room for two blocks. -/
def GoodOptions (c : Cfg) (nt : Nat) : Prop :=
  (lower c.meanType = "longtime" ∨ lower c.meanType = "blockwise" ∨ lower c.meanType = "zero") ∧
    4 ≤ c.nDft ∧ ((c.nDft : Int) - c.nOvlp) + c.nDft ≤ nt

theorem goodOptions_iff (c : Cfg) (nt : Nat) (hov : c.nOvlp ≤ (c.nDft : Int) - 1) :
    GoodOptions c nt ↔ (∃ m, parseMean c.meanType = .ok m) ∧ feasible c.nDft (nBlocks nt c.nDft c.nOvlp) = .ok () := by
  rw [mean_type_accepted, feasible_iff nt c.nDft c.nOvlp hov, GoodOptions]
  constructor <;> rintro ⟨a, b, d⟩ <;> exact ⟨a, by omega, d⟩

theorem rank_share (w : Arr ℝ) (ax p r : Nat) (hp : 0 < p) (hr : r < p) :
    (distributeDimension w ax (some (p, r))).shape = w.shape.set ax (countOf (ext w.shape ax) p r) := slab_shape w ax p r hp hr

theorem rankState_single (c : Cfg) (ω : ℂ) (nt : Nat) (r : Src × Arr ℝ) (h1 : size r.2.shape = 1) (hnb : 2 ≤ fitNb c nt) :
    rankState c ω nt r = none := by
  unfold rankState
  rw [h1, gram_shape_fails _ hnb]
  split <;> simp

theorem fitRanks_good (c : Cfg) (ω : ℂ) (nt : Nat) (hov : c.nOvlp ≤ (c.nDft : Int) - 1) (solver : Solver (fitNb c nt))
    (ranks : List (Src × Arr ℝ)) (o) (h : fitRanks c ω nt solver ranks = some o) :
    GoodOptions c nt ∧ ∀ r ∈ ranks, size r.2.shape ≠ 1 := by
  unfold fitRanks at h
  split at h
  · rename_i a m hf hm
    have hg : GoodOptions c nt := (goodOptions_iff c nt hov).2 ⟨⟨_, hm⟩, hf⟩
    refine ⟨hg, fun r hr h1 => ?_⟩
    rw [mapM_none _ _ r hr (rankState_single c ω nt r h1 (feasible_nb c nt hf).1)] at h
    cases h
  · cases h

/-- **C68 (exactly when).**  A fit of array data on `p` ranks succeeds exactly when the options are good and no rank is left
    with exactly one value; on one process exactly when the options are good and there is more (or less) than one value. -/
theorem fit_succeeds_exact (c : Cfg) (ω : ℂ) (files : List (List (Arr ℝ))) (w : Arr ℝ)
    (hne : files.flatten ≠ []) (hsh : ∀ a ∈ files.flatten, a.shape = w.shape) (hw : w.shape ≠ [])
    (hov : c.nOvlp ≤ (c.nDft : Int) - 1) (solver : Solver (fitNb c files.flatten.length)) (p : Nat) (hp : 0 < p)
    (s : (β : Type) → List (Write β) → List (Write β)) (hs : ∀ β l, (s β l).Perm l) :
    ((∃ out, fitParallel c ω files w solver p s = some out) ↔ GoodOptions c files.flatten.length ∧ NoSingleton w p) ∧
    ((∃ out, fitSerial c ω files w solver = some out) ↔ GoodOptions c files.flatten.length ∧ size w.shape ≠ 1) := by
  obtain ⟨ax, hax, hmax⟩ := maxAxis_ok files w hsh hne hw
  have hpar : fitParallel c ω files w solver p s = fit c ω files.flatten.length solver (some s) ax
      ((List.range p).map fun r => (.arr (files.flatten.map fun a => distributeDimension a ax (some (p, r))),
        distributeDimension w ax (some (p, r)))) := by
    simp only [fitParallel, hax]
    rw [mapM_some _ _ _ fun r _ => oneStage_ok files w ax (some (p, r)) hne]
  have hser : fitSerial c ω files w solver = fit c ω files.flatten.length solver none ax [(.arr files.flatten, w)] := by
    simp only [fitSerial, hax, oneStage_ok files w ax none hne, distributeDimension, List.map_id']
  constructor
  · rw [hpar]
    constructor
    · rintro ⟨out, h⟩
      unfold fit at h
      split at h
      · cases h
      · rename_i hr
        obtain ⟨hg, hall⟩ := fitRanks_good c ω _ hov solver _ _ hr
        refine ⟨hg, fun ax' hax' r hr => ?_⟩
        rw [hax'.unique hmax, ← rank_share w ax p r hp hr]
        exact hall (.arr (files.flatten.map fun a => distributeDimension a ax (some (p, r))),
          distributeDimension w ax (some (p, r))) (List.mem_map.2 ⟨r, List.mem_range.2 hr, rfl⟩)
    · rintro ⟨hg, hn⟩
      obtain ⟨⟨m, hm⟩, hf⟩ := (goodOptions_iff c _ hov).1 hg
      refine ⟨_, fit_par_global c m hm ω files.flatten w _ hf solver ax hmax.1 p hp
        (fun r _ => ⟨List.length_map _, fun idx _ => atIdx_slab files.flatten w hsh ax p r idx⟩) ?_ s hs⟩
      intro r hr
      rw [rank_share w ax p r hp hr]
      exact hn ax hmax r hr
  · rw [hser]
    constructor
    · rintro ⟨out, h⟩
      unfold fit at h
      split at h
      · cases h
      · rename_i hr
        obtain ⟨hg, hall⟩ := fitRanks_good c ω _ hov solver _ _ hr
        exact ⟨hg, hall (.arr files.flatten, w) (by simp)⟩
    · rintro ⟨hg, hn⟩
      obtain ⟨⟨m, hm⟩, hf⟩ := (goodOptions_iff c _ hov).1 hg
      exact ⟨_, fit_ser_global c m hm ω files.flatten w hf solver ax hn⟩

theorem shapesOk_one (xv : Nat) : shapesOk xv 1 = false := by
  simp [shapesOk, Stream.streamDiag, Stream.squeeze, Stream.diagShape]

theorem streamFit_good (c : Cfg) (ω : ℂ) (nt : Nat) (hov : c.nOvlp ≤ (c.nDft : Int) - 1) (h0 : 0 < c.nSave) (svd : Svd (SFit.kept c nt))
    (sched : Sched) (ax p : Nat) (hp : 0 < p) (ranks : Nat → Rank) (o) (h : streamFit c ω nt svd sched ax p ranks = some o) :
    GoodOptions c nt ∧ 2 ≤ c.nSave ∧ ∀ r < p, size (ranks r).w.shape ≠ 1 := by
  unfold streamFit at h
  split at h
  · rename_i a m hf hm
    have hg : GoodOptions c nt := (goodOptions_iff c nt hov).2 ⟨⟨_, hm⟩, hf⟩
    have hnb := feasible_nb c nt hf
    split at h
    · rename_i hok
      have hu : nUpdates c ω nt ≠ 0 := by
        have := (nUpdates_spec c ω hnb.2 (by unfold sep; omega) nt 0).2 (by
          have := hg.2.2
          simp only [streamStart, Nat.zero_mul, Nat.zero_div]
          omega)
        omega
      have hok := hok.resolve_left hu
      have h2 : 2 ≤ c.nSave := by
        by_contra hlt
        have h1 : SFit.kept c nt = 1 := by unfold SFit.kept; omega
        have := hok 0 hp
        rw [h1, shapesOk_one] at this
        cases this
      refine ⟨hg, h2, fun r hr => ?_⟩
      exact (shapesOk_iff _ _ (by unfold SFit.kept; omega)).1 (hok r hr)
    · cases h
  · cases h

/-- **C67 (exactly when).**  A streaming fit of an array that is asked for at least one mode succeeds exactly when the options
    are good, at least two modes are requested, and no rank is left with exactly one value. -/
theorem stream_succeeds_exact (c : Cfg) (ω : ℂ) (frames : List (Arr ℝ)) (w : Arr ℝ)
    (hne : frames ≠ []) (hsh : ∀ a ∈ frames, a.shape = w.shape) (hw : w.shape ≠ [])
    (hov : c.nOvlp ≤ (c.nDft : Int) - 1) (h0 : 0 < c.nSave) (svd : Svd (SFit.kept c frames.length)) (p : Nat) (hp : 0 < p)
    (s : (β : Type) → List (Write β) → List (Write β)) (hs : ∀ β l, (s β l).Perm l) :
    ((∃ out, streamParallel c ω frames w svd p s = some out) ↔
      GoodOptions c frames.length ∧ 2 ≤ c.nSave ∧ NoSingleton w p) ∧
    ((∃ out, streamSerial c ω frames w svd = some out) ↔
      GoodOptions c frames.length ∧ 2 ≤ c.nSave ∧ size w.shape ≠ 1) := by
  obtain ⟨ax, hax, hmax⟩ := maxAxis_ok [frames] w (by simpa using hsh) (by simpa using hne) hw
  have hrk : ∀ r < p, ((List.range p).map fun r => (⟨frames.map fun a => distributeDimension a ax (some (p, r)),
      distributeDimension w ax (some (p, r))⟩ : Rank)).getD r ⟨[], ⟨[], fun _ => 0⟩⟩ =
      ⟨frames.map fun a => distributeDimension a ax (some (p, r)), distributeDimension w ax (some (p, r))⟩ := by
    intro r hr
    simp [List.getD_eq_getElem?_getD, List.getElem?_map, List.getElem?_range hr]
  have hpar : streamParallel c ω frames w svd p s = streamFit c ω frames.length svd (some s) ax p fun r =>
      ((List.range p).map fun r => (⟨frames.map fun a => distributeDimension a ax (some (p, r)),
        distributeDimension w ax (some (p, r))⟩ : Rank)).getD r ⟨[], ⟨[], fun _ => 0⟩⟩ := by
    simp only [streamParallel, hax]
    rw [mapM_some _ _ _ fun r _ => readRank_ok frames w ax (some (p, r))]
  have hser : streamSerial c ω frames w svd = streamFit c ω frames.length svd none ax 1 fun _ => ⟨frames, w⟩ := by
    simp only [streamSerial, hax, readRank_ok, distributeDimension, List.map_id']
  have hk : ∀ {nt}, GoodOptions c nt → 2 ≤ c.nSave → 2 ≤ SFit.kept c nt := by
    intro nt hg h2
    have := (feasible_nb c nt ((goodOptions_iff c _ hov).1 hg).2).1
    unfold SFit.kept
    omega
  constructor
  · rw [hpar]
    constructor
    · rintro ⟨out, h⟩
      obtain ⟨hg, h2, hall⟩ := streamFit_good c ω _ hov h0 svd _ ax p hp _ _ h
      refine ⟨hg, h2, fun ax' hax' r hr => ?_⟩
      have := hall r hr
      simp only [hrk r hr] at this
      rwa [hax'.unique hmax, ← rank_share w ax p r hp hr]
    · rintro ⟨hg, h2, hn⟩
      obtain ⟨⟨m, hm⟩, hf⟩ := (goodOptions_iff c _ hov).1 hg
      refine ⟨_, stream_par_global c m hm ω frames w hsh hf (hk hg h2) svd ax hmax.1 p hp ?_ s hs _ hrk⟩
      intro r hr
      rw [rank_share w ax p r hp hr]
      exact hn ax hmax r hr
  · rw [hser]
    constructor
    · rintro ⟨out, h⟩
      obtain ⟨hg, h2, hall⟩ := streamFit_good c ω _ hov h0 svd _ ax 1 (by omega) _ _ h
      exact ⟨hg, h2, hall 0 (by omega)⟩
    · rintro ⟨hg, h2, hn⟩
      obtain ⟨⟨m, hm⟩, hf⟩ := (goodOptions_iff c _ hov).1 hg
      exact ⟨_, stream_ser_global c m hm ω frames w hf (hk hg h2) svd ax hn⟩

/-- **C68 fails**, end to end: two values on two ranks leave one value each, and the fit raises although the same data are
    accepted on one process. -/
theorem fit_two_ranks_fails (ω : ℂ) (solver : Solver (fitNb sexCfg [sexFrames].flatten.length))
    (s : (β : Type) → List (Write β) → List (Write β)) (hs : ∀ β l, (s β l).Perm l) :
    (∃ out, fitSerial sexCfg ω [sexFrames] sexWeights solver = some out) ∧
    ¬ ∃ out, fitParallel sexCfg ω [sexFrames] sexWeights solver 2 s = some out := by
  have hsh : ∀ a ∈ ([sexFrames] : List _).flatten, a.shape = sexWeights.shape := by
    intro a ha
    simp only [List.flatten_cons, List.flatten_nil, List.append_nil, sexFrames, List.mem_map] at ha
    obtain ⟨t, _, rfl⟩ := ha
    rfl
  obtain ⟨h1, h2⟩ := fit_succeeds_exact sexCfg ω [sexFrames] sexWeights (by simp [sexFrames]) hsh (by decide) (by decide)
    solver 2 (by omega) s hs
  refine ⟨h2.2 ⟨?_, by decide⟩, fun h => ?_⟩
  · exact ⟨Or.inl (by decide), by decide, by decide⟩
  · have := (h1.1 h).2 0 ⟨by decide, fun i hi => by have hi : i < 2 := hi; interval_cases i <;> decide, fun i hi => absurd hi (by omega)⟩ 0 (by omega)
    exact this (by decide)

end Verif.Props
