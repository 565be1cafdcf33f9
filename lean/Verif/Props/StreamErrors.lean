import Verif.Model.StreamErrors
import Verif.Props.StreamInv
import Verif.Props.Spmd
/-
  C191, C192: errors while a stream is read.
-/
set_option linter.unusedVariables false
namespace Verif.Props
open Verif Verif.Par Verif.Rd Verif.Spod Verif.Fit Verif.SFit Verif.Spmd Matrix

/-! ### C191: one process -/

/-- reading snapshot `t` fails, reading the earlier ones does not -/
def FirstError (bad : Nat → Bool) (t : Nat) : Prop := bad t = true ∧ ∀ s < t, bad s = false

theorem dist_none (l : List (Arr ℝ)) (ax : Nat) : (l.map fun a => distributeDimension a ax none) = l := by
  simp [distributeDimension]

theorem readErr_stops (bad : Nat → Bool) (frames : List (Arr ℝ)) (w : Arr ℝ) (ax t : Nat) (ht : FirstError bad t) (h1 : 1 ≤ t) (h2 : t ≤ frames.length) :
    readErr bad [frames] w ax none (frames.length + 1) = some ⟨frames.take t, w⟩ := by
  have h0 := ht.2 0 (by omega)
  unfold readErr
  rw [h0]
  have := consume_list (fetchErr (⟨[], fun _ => 0⟩ : Arr ℝ) bad [frames]) (frames.take t) 0 (frames.length + 1) (by
      intro i x hx
      have hi : i < t := by
        by_contra hc
        rw [List.getElem?_take, if_neg hc] at hx
        cases hx
      rw [Nat.zero_add, fetchErr, ht.2 i hi]
      rw [List.getElem?_take, if_pos hi] at hx
      exact fetch1_hit _ frames [] i x hx)
    (by
      rw [Nat.zero_add, List.length_take, min_eq_left h2, fetchErr, ht.1]
      rfl)
    (by rw [List.length_take]; omega)
  simp only [List.map_cons, List.map_nil, dist_none, this, Bool.false_eq_true, if_false]
  rfl

theorem readErr_none (bad : Nat → Bool) (frames : List (Arr ℝ)) (w : Arr ℝ) (ax : Nat) (hb : ∀ s < frames.length, bad s = false) (hne : frames ≠ []) :
    readErr bad [frames] w ax none (frames.length + 1) = some ⟨frames, w⟩ := by
  have h0 := hb 0 (List.length_pos_iff.2 hne)
  unfold readErr
  rw [h0]
  have := consume_list (fetchErr (⟨[], fun _ => 0⟩ : Arr ℝ) bad [frames]) frames 0 (frames.length + 1) (by
      intro i x hx
      have hi : i < frames.length := (List.getElem?_eq_some_iff.1 hx).1
      rw [Nat.zero_add, fetchErr, hb i hi]
      exact fetch1_hit _ frames [] i x hx)
    (by
      rw [Nat.zero_add, fetchErr]
      split
      · rfl
      · exact fetch1_past _ [frames] _ (by simp))
    (by omega)
  simp only [List.map_cons, List.map_nil, dist_none, this, Bool.false_eq_true, if_false]
  rfl

theorem fit_read (c : Cfg) (m : MeanType) (hm : parseMean c.meanType = .ok m) (ω : ℂ) (nt : Nat) (hfeas : feasible c.nDft (nBlocks nt c.nDft c.nOvlp) = .ok ())
    (hk : 2 ≤ kept c nt) (svd : Svd (kept c nt)) (ax : Nat) (d : List (Arr ℝ)) (w : Arr ℝ) (hone : size w.shape ≠ 1) :
    ∃ out, streamFitRead c ω nt svd ax ⟨d, w⟩ = some out ∧
      (∀ f, out.eigs f = (basisAfter svd 1 (fun _ => w.shape) (fun m _ idx => newCol c ω f m (w.at' idx) (atIdx idx d)) (nUpdates c ω d.length)).S) ∧
      (∀ f, out.modes f = npSave (modesOf w
        ((basisAfter svd 1 (fun _ => w.shape) (fun m _ idx => newCol c ω f m (w.at' idx) (atIdx idx d)) (nUpdates c ω d.length)).U 0))) ∧
      out.weights = npSave w ∧
      out.ltm = npSave ⟨w.shape, fun idx => Stream.longTMeanNt ℝ nt (fitNb c nt) (atIdx idx (d.take 1))⟩ := by
  have hok : shapesOk (size w.shape) (kept c nt) = true := by
    rw [shapesOk_iff _ _ hk]
    exact hone
  simp only [streamFitRead, hfeas, hm, if_pos (Or.inr hok)]
  exact ⟨_, rfl, fun f => rfl, fun f => rfl, rfl, rfl⟩

/-- **C191.** Without errors, the streaming fit of C97 and C98. -/
theorem stream_read_ok (c : Cfg) (ω : ℂ) (frames : List (Arr ℝ)) (w : Arr ℝ) (h : StreamAccepted c frames w) (svd : Svd (kept c frames.length))
    (bad : Nat → Bool) (hb : ∀ s < frames.length, bad s = false) :
    streamSerialErr c ω bad frames w svd = streamSerial c ω frames w svd := by
  obtain ⟨m, hm⟩ := (mean_type_accepted c.meanType).2 h.mean
  obtain ⟨ax, hax, hmax⟩ := maxAxis_ok [frames] w (by simpa using h.shapes) (by simpa using h.ne) h.space
  rw [(h.runs ω svd).1]
  have hok : shapesOk (size w.shape) (kept c frames.length) = true := by
    rw [shapesOk_iff _ _ h.kept]
    exact h.points
  simp only [streamSerialErr, hax, readErr_none bad frames w ax hb h.ne, streamFitRead, h.blocks, hm, if_pos (Or.inr hok)]
  rfl

/-- An error while the first snapshot is read is raised. -/
theorem stream_error_first (c : Cfg) (ω : ℂ) (frames : List (Arr ℝ)) (w : Arr ℝ) (svd : Svd (kept c frames.length)) (bad : Nat → Bool) (hb : bad 0 = true) :
    streamSerialErr c ω bad frames w svd = none := by
  unfold streamSerialErr
  cases maxAxis [frames] with
  | none => rfl
  | some ax => simp [readErr, hb]

theorem same_kept (c : Cfg) (ω : ℂ) (n n' : Nat) (hk : kept c n = kept c n') (svd : ∀ k, Svd k) (w : Arr ℝ) (x : Nat → List Nat → ℂ) (M : Nat) :
    (∀ j hj hj', (basisAfter (svd (kept c n')) 1 (fun _ => w.shape) (fun m _ idx => x m idx) M).S ⟨j, hj'⟩ =
      (basisAfter (svd (kept c n)) 1 (fun _ => w.shape) (fun m _ idx => x m idx) M).S ⟨j, hj⟩) ∧
    npSave (modesOf w ((basisAfter (svd (kept c n')) 1 (fun _ => w.shape) (fun m _ idx => x m idx) M).U 0)) =
      npSave (modesOf w ((basisAfter (svd (kept c n)) 1 (fun _ => w.shape) (fun m _ idx => x m idx) M).U 0)) := by
  generalize kept c n = k at *
  generalize kept c n' = k' at *
  subst hk
  exact ⟨fun _ _ _ => rfl, rfl⟩

/-- **C191 fails.** Any error (also an interrupt by the user) while a later snapshot is read is taken for the end of the data: no exception, and the files written
    are those of a fit of the snapshots before the error — the eigenvalues and modes exactly, if as many modes are kept. -/
theorem stream_error_silent (c : Cfg) (ω : ℂ) (frames : List (Arr ℝ)) (w : Arr ℝ) (h : StreamAccepted c frames w) (svd : ∀ k, Svd k) (bad : Nat → Bool) (t : Nat)
    (ht : FirstError bad t) (h1 : 1 ≤ t) (h2 : t < frames.length) :
    ∃ out, streamSerialErr c ω bad frames w (svd _) = some out ∧
      (StreamAccepted c (frames.take t) w → kept c (frames.take t).length = kept c frames.length →
        ∃ out', streamSerial c ω (frames.take t) w (svd _) = some out' ∧ SameSpod out' out) := by
  obtain ⟨m, hm⟩ := (mean_type_accepted c.meanType).2 h.mean
  obtain ⟨ax, hax, hmax⟩ := maxAxis_ok [frames] w (by simpa using h.shapes) (by simpa using h.ne) h.space
  obtain ⟨out, ho, he, hp, -⟩ := fit_read c m hm ω frames.length h.blocks h.kept (svd _) ax (frames.take t) w h.points
  refine ⟨out, by simp only [streamSerialErr, hax, readErr_stops bad frames w ax t ht h1 h2.le]; exact ho, fun h' hk => ?_⟩
  refine ⟨_, (h'.runs ω (svd _)).1, hk.symm, fun f => ?_⟩
  have := same_kept c ω _ _ hk svd w (fun m idx => newCol c ω f m (w.at' idx) (atIdx idx (frames.take t))) (nUpdates c ω (frames.take t).length)
  refine ⟨fun j hj hj' => ?_, ?_⟩
  · rw [he]
    exact this.1 j hj hj'
  · rw [hp]
    exact this.2

/-- In particular, when the error comes before the end of the first block, zeros are written: all eigenvalues are 0, at all frequencies, and no exception is raised. -/
theorem stream_error_zero (c : Cfg) (ω : ℂ) (frames : List (Arr ℝ)) (w : Arr ℝ) (h : StreamAccepted c frames w) (svd : ∀ k, Svd k) (bad : Nat → Bool) (t : Nat)
    (ht : FirstError bad t) (h1 : 1 ≤ t) (h2 : t < c.nDft) (h3 : t < frames.length) :
    ∃ out, streamSerialErr c ω bad frames w (svd _) = some out ∧ (∀ f j, out.eigs f j = 0) ∧
      ∀ f, out.modes f = npSave ⟨w.shape ++ [kept c frames.length], fun _ => 0⟩ := by
  obtain ⟨m, hm⟩ := (mean_type_accepted c.meanType).2 h.mean
  obtain ⟨ax, hax, hmax⟩ := maxAxis_ok [frames] w (by simpa using h.shapes) (by simpa using h.ne) h.space
  obtain ⟨out, ho, he, hp, -⟩ := fit_read c m hm ω frames.length h.blocks h.kept (svd _) ax (frames.take t) w h.points
  have hM : nUpdates c ω (frames.take t).length = 0 := by
    by_contra hc
    have := (nUpdates_spec c ω h.dft h.sep (frames.take t).length 0).1 (by omega)
    rw [List.length_take] at this
    omega
  rw [hM] at he hp
  refine ⟨out, by simp only [streamSerialErr, hax, readErr_stops bad frames w ax t ht h1 h3.le]; exact ho, fun f j => ?_, fun f => ?_⟩
  · rw [he]
    rfl
  · rw [hp]
    apply npSave_congr
    refine ⟨rfl, fun idx _ => ?_⟩
    simp [modesOf, basisAfter]

/-! ### C192: several ranks -/

theorem mismatch_stuck (L : Lib) (p : Nat) (calls : Nat → List Coll) (q r j : Nat) (a b : Coll) (hq : q < p) (hr : r < p) (ha : (calls q)[j]? = some a)
    (hb : (calls r)[j]? = some b) (hab : a ≠ b) (hwa : mustWait a q r) (hwb : mustWait b r q) (n : Nat) (s : Nat → Nat) (hs : Reach L p calls n s) :
    s q ≤ j ∧ s r ≤ j := by
  induction hs with
  | init => exact ⟨Nat.zero_le _, Nat.zero_le _⟩
  | @step n s s' hprev hstep ih =>
    obtain ⟨x, e, hx, he, hw, rfl⟩ := hstep
    refine ⟨?_, ?_⟩
    · show (if q = x then _ else _) ≤ j
      split
      · rename_i h
        subst h
        by_contra hc
        have : s q = j := by omega
        rw [this, ha] at he
        cases he
        have := (hw r hr (L.least _ _ _ hwa)).2
        rw [‹s q = j›, hb] at this
        exact hab (Option.some.inj this).symm
      · exact ih.1
    · show (if r = x then _ else _) ≤ j
      split
      · rename_i h
        subst h
        by_contra hc
        have : s r = j := by omega
        rw [this, hb] at he
        cases he
        have := (hw q hq (L.least _ _ _ hwb)).2
        rw [‹s r = j›, ha] at this
        exact hab (Option.some.inj this)
      · exact ih.2

/-- **C192, the part that holds.** A streaming fit of an array ends on every number of ranks: no reachable state is stuck, and there are finitely many steps, if all
    ranks find the same end of the data. -/
theorem stream_ends_partial (L : Lib) (R : StreamRun') (k : Nat) (half : Bool) (n : Nat) (s : Nat → Nat) (hs : Reach L R.p (fun _ => streamCalls R k half) n s) :
    n ≤ R.p * (streamCalls R k half).length ∧
    ((∀ r < R.p, Ended (fun _ => streamCalls R k half) s r) ∨ ∃ s', Step L R.p (fun _ => streamCalls R k half) s s') :=
  no_deadlock L R.p _ (streamCalls R k half) (fun _ _ => rfl) n s hs

theorem store_first (R : StreamRun') : (streamStore R)[0]? = some .allreduce := by
  unfold streamStore
  cases R.nf with
  | zero => rfl
  | succ n => rfl

theorem calls_split (R : StreamRun') (k k' : Nat) (hk : k ≤ k') (half : Bool) :
    ∃ rest, streamCalls R k' half = streamSetup R ++ ((List.range k).map (snapshotCalls R)).flatten ++ rest ∧
      rest = (((List.range (k' - k)).map fun i => snapshotCalls R (k + i)).flatten ++ (if half then [Coll.barrier] else []) ++ streamStore R) := by
  refine ⟨_, ?_, rfl⟩
  have : List.range k' = List.range k ++ (List.range (k' - k)).map (k + ·) := by
    rw [← List.range_add]
    congr 1
    omega
  unfold streamCalls
  rw [this, List.map_append, List.flatten_append, List.map_map]
  simp only [List.append_assoc]
  rfl

theorem getElem_after {α} (a b : List α) (i : Nat) : (a ++ b)[a.length + i]? = b[i]? := by
  rw [List.getElem?_append_right (by omega)]
  congr 1
  omega

/-- **C192 fails.** Rank `q` cannot read snapshot `k` (an error, or an interrupt), and takes it for the end of the data, while rank `r` goes on and reads it: neither
    of the two ever returns, in every MPI library: `q` waits in the reduction with which it saves its modes, `r` in the barrier of the snapshot.  `hhalf`: if the
    error comes after the barrier inside the read, provided the snapshot is not the last one, or completes a block. -/
theorem stream_error_hangs (L : Lib) (R : StreamRun') (ends : Nat → Nat × Bool) (q r : Nat) (hq : q < R.p) (hr : r < R.p) (hlt : (ends q).1 < (ends r).1)
    (hhalf : (ends q).2 = true → (ends q).1 + 1 < (ends r).1 ∨ (ends r).2 = true ∨ (R.completes (ends q).1 = true ∧ 0 < R.nf)) (n : Nat) (s : Nat → Nat)
    (hs : Reach L R.p (fun x => streamCalls R (ends x).1 (ends x).2) n s) :
    ¬ Ended (fun x => streamCalls R (ends x).1 (ends x).2) s q ∧ ¬ Ended (fun x => streamCalls R (ends x).1 (ends x).2) s r := by
  rcases h : ends q with ⟨k, hf⟩
  rcases h' : ends r with ⟨k', hf'⟩
  rw [h, h'] at hlt hhalf
  simp only at hlt hhalf
  obtain ⟨rq, eq, hrq⟩ := calls_split R k k (le_refl _) hf
  obtain ⟨rr, er, hrr⟩ := calls_split R k k' hlt.le hf'
  set pre := streamSetup R ++ ((List.range k).map (snapshotCalls R)).flatten with hpre
  rw [Nat.sub_self] at hrq
  simp only [List.range_zero, List.map_nil, List.flatten_nil, List.nil_append] at hrq
  obtain ⟨d, hd⟩ : ∃ d, k' - k = d + 1 := ⟨k' - k - 1, by omega⟩
  rw [hd, List.range_succ_eq_map] at hrr
  simp only [List.map_cons, Nat.add_zero, List.flatten_cons, List.map_map, List.append_assoc] at hrr
  have key : ∃ i : Nat, rq[i]? = some Coll.allreduce ∧ rr[i]? = some Coll.barrier := by
    cases hf with
    | false =>
      refine ⟨0, ?_, ?_⟩
      · rw [hrq]
        exact store_first R
      · rw [hrr]
        rfl
    | true =>
      refine ⟨1, ?_, ?_⟩
      · rw [hrq]
        have := store_first R
        show (([Coll.barrier] ++ streamStore R) : List Coll)[1]? = _
        rw [show ([Coll.barrier] ++ streamStore R : List Coll) = Coll.barrier :: streamStore R from rfl, List.getElem?_cons_succ]
        exact this
      · rw [hrr]
        simp only [snapshotCalls, List.cons_append, List.nil_append, List.getElem?_cons_succ]
        rcases hhalf rfl with h | h | ⟨h, h0⟩
        · by_cases hc : R.completes k = true ∧ 0 < R.nf
          · obtain ⟨e, he⟩ : ∃ e, R.nf = e + 1 := ⟨R.nf - 1, by omega⟩
            simp [updateCalls, hc.1, he, List.replicate_succ]
          · have hu : updateCalls R k = [] := by
              unfold updateCalls
              split
              · rename_i h1
                have : R.nf = 0 := by
                  by_contra h2
                  exact hc ⟨h1, by omega⟩
                rw [this]
                rfl
              · rfl
            rw [hu]
            obtain ⟨e, he⟩ : ∃ e, d = e + 1 := ⟨d - 1, by omega⟩
            rw [he, List.range_succ_eq_map]
            simp
        · by_cases hc : R.completes k = true ∧ 0 < R.nf
          · obtain ⟨e, he⟩ : ∃ e, R.nf = e + 1 := ⟨R.nf - 1, by omega⟩
            simp [updateCalls, hc.1, he, List.replicate_succ]
          · have hu : updateCalls R k = [] := by
              unfold updateCalls
              split
              · rename_i h1
                have : R.nf = 0 := by
                  by_contra h2
                  exact hc ⟨h1, by omega⟩
                rw [this]
                rfl
              · rfl
            rw [hu, h]
            cases d with
            | zero => simp
            | succ e => rw [List.range_succ_eq_map]; simp
        · obtain ⟨e, he⟩ : ∃ e, R.nf = e + 1 := ⟨R.nf - 1, by omega⟩
          simp [updateCalls, h, he, List.replicate_succ]
  obtain ⟨i, hi, hi'⟩ := key
  have hcq : (fun x => streamCalls R (ends x).1 (ends x).2) q = pre ++ rq := by simp only [h]; exact eq
  have hcr : (fun x => streamCalls R (ends x).1 (ends x).2) r = pre ++ rr := by simp only [h']; exact er
  have hjq : ((fun x => streamCalls R (ends x).1 (ends x).2) q)[pre.length + i]? = some .allreduce := by rw [hcq, getElem_after]; exact hi
  have hjr : ((fun x => streamCalls R (ends x).1 (ends x).2) r)[pre.length + i]? = some .barrier := by rw [hcr, getElem_after]; exact hi'
  have := mismatch_stuck L R.p _ q r (pre.length + i) .allreduce .barrier hq hr hjq hjr (by decide) trivial trivial n s hs
  have lq := (List.getElem?_eq_some_iff.1 hjq).1
  have lr := (List.getElem?_eq_some_iff.1 hjr).1
  unfold Ended
  omega

/-- The remaining case does no harm: an error after the barrier of the last snapshot, which completes no block, leaves the sequence of calls unchanged. -/
theorem stream_error_harmless (R : StreamRun') (k : Nat) (h : R.completes k = false) : streamCalls R k true = streamCalls R (k + 1) false := by
  simp [streamCalls, List.range_succ, snapshotCalls, updateCalls, h]

/-! #### Concrete cases -/

/-- two ranks, ten snapshots, a block complete after the eighth; rank 1 cannot read the fifth -/
example (L : Lib) (n : Nat) (s : Nat → Nat)
    (hs : Reach L 2 (fun x => streamCalls ⟨2, 10, 3, 1, false, fun t => t == 7⟩ (if x = 1 then 4 else 10) (x == 1)) n s) :
    ¬ Ended (fun x => streamCalls ⟨2, 10, 3, 1, false, fun t => t == 7⟩ (if x = 1 then 4 else 10) (x == 1)) s 0 :=
  (stream_error_hangs L ⟨2, 10, 3, 1, false, fun t => t == 7⟩ (fun x => (if x = 1 then 4 else 10, x == 1)) 1 0 (by decide) (by decide) (by decide)
    (fun _ => Or.inl (by decide)) n s hs).2

example (ω : ℂ) (svd : ∀ k, Svd k) : ∃ out, streamSerialErr sexCfg ω (· == 2) sexFrames sexWeights (svd _) = some out ∧ ∀ f j, out.eigs f j = 0 := by
  obtain ⟨out, h1, h2, -⟩ := stream_error_zero sexCfg ω sexFrames sexWeights sex_accepted svd (· == 2) 2 ⟨by decide, by intro s hs; simp; omega⟩ (by decide)
    (by decide) (by decide)
  exact ⟨out, h1, h2⟩

end Verif.Props
