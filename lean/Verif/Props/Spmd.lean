import Verif.Model.Spmd
import Verif.Props.FitFiles
/-
  C92-C94: no deadlock in a run without errors; what happens when a rank raises; the ranks agree on stored blocks.
-/
namespace Verif.Props
open Verif Verif.Par Verif.Spmd

/-! ### C92: no deadlock -/

theorem reach_le {L : Lib} {p : Nat} {calls : Nat → List Coll} {n : Nat} {s : Nat → Nat} (h : Reach L p calls n s)
    (r : Nat) : s r ≤ (calls r).length := by
  induction h with
  | init => exact Nat.zero_le _
  | step _ hs ih =>
    obtain ⟨q, c, _, hc, _, rfl⟩ := hs
    have := (List.getElem?_eq_some_iff.1 hc).1
    by_cases h : r = q
    · subst h; simp only [↓reduceIte]; omega
    · simp only [h, ↓reduceIte]; exact ih

theorem reach_sum {L : Lib} {p : Nat} {calls : Nat → List Coll} {n : Nat} {s : Nat → Nat} (h : Reach L p calls n s) :
    ∑ r ∈ Finset.range p, s r = n := by
  induction h with
  | init => simp
  | step _ hs ih =>
    rename_i n s s' _
    obtain ⟨q, c, hq, _, _, rfl⟩ := hs
    have hm : q ∈ Finset.range p := Finset.mem_range.2 hq
    rw [← ih, ← Finset.add_sum_erase _ _ hm, ← Finset.add_sum_erase _ s hm]
    have : ∑ x ∈ (Finset.range p).erase q, (if x = q then s q + 1 else s x) = ∑ x ∈ (Finset.range p).erase q, s x := by
      apply Finset.sum_congr rfl
      intro x hx
      rw [if_neg (Finset.ne_of_mem_erase hx)]
    simp only [↓reduceIte, this]
    omega

/-- **C92.** If all ranks make the same calls, then in every state any MPI library can reach, either all ranks have
    ended or some rank can go on; every run takes at most `p * (number of calls)` steps, and when no step is left every
    rank has ended. -/
theorem no_deadlock (L : Lib) (p : Nat) (calls : Nat → List Coll) (prog : List Coll) (h : ∀ r < p, calls r = prog)
    (n : Nat) (s : Nat → Nat) (hs : Reach L p calls n s) :
    n ≤ p * prog.length ∧ ((∀ r < p, Ended calls s r) ∨ ∃ s', Step L p calls s s') := by
  constructor
  · rw [← reach_sum hs]
    calc ∑ r ∈ Finset.range p, s r ≤ ∑ _r ∈ Finset.range p, prog.length := by
          apply Finset.sum_le_sum
          intro r hr
          have := reach_le hs r
          rwa [h r (Finset.mem_range.1 hr)] at this
      _ = p * prog.length := by simp
  · by_cases hall : ∀ r < p, Ended calls s r
    · exact Or.inl hall
    · right
      push Not at hall
      -- a rank that has made the fewest calls
      obtain ⟨r0, hr0, hne⟩ := hall
      obtain ⟨r, hr, hmin⟩ := Finset.exists_min_image (Finset.range p) s ⟨r0, Finset.mem_range.2 hr0⟩
      have hr := Finset.mem_range.1 hr
      have hlt : s r < prog.length := by
        have h1 := hmin r0 (Finset.mem_range.2 hr0)
        have h2 := reach_le hs r0
        simp only [Ended] at hne
        rw [h r0 hr0] at h2 hne
        omega
      refine ⟨_, r, prog[s r], hr, ?_, ?_, rfl⟩
      · rw [h r hr]; exact List.getElem?_eq_getElem hlt
      · intro q hq _
        refine ⟨hmin q (Finset.mem_range.2 hq), ?_⟩
        rw [h q hq]; exact List.getElem?_eq_getElem hlt

/-- **C92 for a fit.** A fit in which no rank raises, of any input, with any settings, on any number of ranks, with any
    MPI library and schedule, never deadlocks and ends on every rank. -/
theorem fit_no_deadlock (L : Lib) (R : FitRun) (n : Nat) (s : Nat → Nat)
    (hs : Reach L R.p (withFailures (fitCalls R) fun _ => none) n s) :
    n ≤ R.p * (fitCalls R).length ∧
    ((∀ r < R.p, Ended (withFailures (fitCalls R) fun _ => none) s r) ∨
      ∃ s', Step L R.p (withFailures (fitCalls R) fun _ => none) s s') :=
  no_deadlock L R.p _ (fitCalls R) (fun _ _ => rfl) n s hs

/-- A library that waits for everybody in every call, and one that waits as little as possible. -/
def libAll : Lib := ⟨fun _ _ _ => True, fun _ _ _ _ => trivial⟩
def libLeast : Lib := ⟨mustWait, fun _ _ _ h => h⟩

/-- a fit on 3 ranks makes 41 calls: NetCDF files in 2 chunks, 3 frequencies, 2 modes -/
example : (fitCalls ⟨3, .netcdf 2, 4, 3, 2, 1, false, false, false, .disk2⟩).length = 41 := by decide

/-! ### C93: a rank raises -/

/-- **C93 (stuck).** If rank `q` ends (returns or raises) before its call number `j`, a rank that must wait for `q` in
    its own call number `j` never gets past it. -/
theorem rank_stuck (L : Lib) (p : Nat) (calls : Nat → List Coll) (r q j : Nat) (c : Coll) (hq : q < p)
    (hc : (calls r)[j]? = some c) (hw : mustWait c r q) (hlen : (calls q).length ≤ j) (n : Nat) (s : Nat → Nat)
    (hs : Reach L p calls n s) : s r ≤ j ∧ ¬ Ended calls s r := by
  have hj := (List.getElem?_eq_some_iff.1 hc).1
  have key : s r ≤ j := by
    induction hs with
    | init => exact Nat.zero_le _
    | step hprev hstep ih =>
      rename_i n s s'
      obtain ⟨r', c', hr', hc', hwait, rfl⟩ := hstep
      by_cases h : r = r'
      · subst h
        simp only [↓reduceIte]
        by_contra hgt
        have e : s r = j := by omega
        rw [e] at hc' hwait
        rw [hc] at hc'
        simp only [Option.some.injEq] at hc'
        subst hc'
        have := (hwait q hq (L.least _ _ _ hw)).2
        have := (List.getElem?_eq_some_iff.1 this).1
        omega
      · simp only [h, ↓reduceIte]; exact ih
  refine ⟨key, ?_⟩
  simp only [Ended]
  omega

/-- **C93 (exact, any program).** Let every rank run a program that ends with a barrier, and some ranks raise before it.
    Then no rank that does not raise ever ends, whatever the library and the schedule: a run ends on all ranks only if no
    rank raises or all do. -/
theorem error_hangs (L : Lib) (p : Nat) (prog : List Coll) (fail : Nat → Option Nat)
    (hlast : prog.getLast? = some .barrier) (q i : Nat) (hq : q < p) (hf : fail q = some i) (hi : i < prog.length)
    (r : Nat) (hr : fail r = none) (n : Nat) (s : Nat → Nat)
    (hs : Reach L p (withFailures prog fail) n s) : ¬ Ended (withFailures prog fail) s r := by
  have hidx : prog[prog.length - 1]? = some .barrier := by rw [← hlast, List.getLast?_eq_getElem?]
  refine (rank_stuck L p _ r q (prog.length - 1) .barrier hq ?_ trivial ?_ n s hs).2
  · simp only [withFailures, hr]; exact hidx
  · simp only [withFailures, hf, List.length_take]; omega

/-- **C93 (a pass of the saving step).** If rank `q` raises before a pass of the saving step in which the ranks below `w` receive modes, the ranks that can still
    complete the pass (in some library and schedule) are exactly those that receive nothing. -/
theorem pass_error_exact (p w r q : Nat) (hr : r < p) (hq : q < p) (hne : r ≠ q) :
    (∃ (L : Lib) (n : Nat) (s : Nat → Nat), Reach L p (withFailures [.gather w] fun x => if x = q then some 0 else none) n s ∧
      Ended (withFailures [.gather w] fun x => if x = q then some 0 else none) s r) ↔ w ≤ r := by
  constructor
  · rintro ⟨L, n, s, hs, he⟩
    by_contra hw
    refine (rank_stuck L p _ r q 0 (.gather w) hq ?_ (show r < w by omega) ?_ n s hs).2 he
    · simp [withFailures, hne]
    · simp [withFailures]
  · intro hw
    refine ⟨⟨mustWait, fun _ _ _ h => h⟩, 1, fun x => if x = r then 1 else 0, .step .init ⟨r, .gather w, hr, ?_, ?_, rfl⟩, ?_⟩
    · simp [withFailures, hne]
    · intro x hx h
      have h : r < w := h
      omega
    · simp [Ended, withFailures, hne]

/-- **C93 (uniform errors).** An error that every rank raises at the same point ends the run on every rank. -/
theorem uniform_error_ends (L : Lib) (p : Nat) (prog : List Coll) (i n : Nat) (s : Nat → Nat)
    (hs : Reach L p (withFailures prog fun _ => some i) n s) :
    (∀ r < p, Ended (withFailures prog fun _ => some i) s r) ∨ ∃ s', Step L p (withFailures prog fun _ => some i) s s' :=
  (no_deadlock L p _ (prog.take i) (fun _ _ => rfl) n s hs).2

/-- the ranks a call names exist -/
def RanksExist (p : Nat) : Coll → Prop
  | .bcast root | .reduce root => root < p
  | .gather w => w ≤ p
  | _ => True

/-- **C92.** No call of a fit names a rank that does not exist, on any number of ranks. -/
theorem fit_ranks_exist (R : FitRun) (hp : 0 < R.p) : ∀ c ∈ fitCalls R, RanksExist R.p c := by
  have hsave : ∀ c ∈ npySaveCalls, RanksExist R.p c := by
    intro c hc
    simp only [npySaveCalls, List.mem_cons, List.not_mem_nil, or_false] at hc
    rcases hc with rfl | rfl | rfl | rfl | rfl | rfl | rfl | rfl | rfl <;> first | exact hp | trivial
  have hrep : ∀ n, ∀ c ∈ (List.replicate n npySaveCalls).flatten, RanksExist R.p c := by
    intro n c hc
    obtain ⟨l, hl, hc⟩ := List.mem_flatten.1 hc
    rw [(List.mem_replicate.1 hl).2] at hc
    exact hsave c hc
  intro c hc
  simp only [fitCalls, List.mem_append, or_assoc] at hc
  rcases hc with h | h | h | h | h | h
  · cases hi : R.input <;> simp only [hi, initCalls, List.mem_cons, List.not_mem_nil, or_false, or_self] at h <;> subst h <;> exact hp
  · have hx : ∀ k, c ∈ (List.replicate k [Coll.allreduce, .exchange]).flatten ++ [.reduce 0] → RanksExist R.p c := by
      intro k h
      rcases List.mem_append.1 h with h | h
      · obtain ⟨l, hl, hc⟩ := List.mem_flatten.1 h
        rw [(List.mem_replicate.1 hl).2] at hc
        simp only [List.mem_cons, List.not_mem_nil, or_false] at hc
        rcases hc with rfl | rfl <;> trivial
      · rw [List.mem_singleton.1 h]; exact hp
    cases hi : R.input with
    | arrays n =>
      rw [hi] at h
      rw [(List.mem_replicate.1 h).2]
      trivial
    | netcdf k => rw [hi] at h; exact hx k h
    | mat k => rw [hi] at h; exact hx k h
  · simp only [setupCalls, List.mem_append, List.mem_cons, List.not_mem_nil, or_false] at h
    rcases h with (rfl | h) | rfl | rfl | rfl | rfl <;> first | trivial | skip
    split at h
    · rw [(List.mem_replicate.1 h).2]; trivial
    · simp at h
  · simp only [blockCalls, List.mem_append, List.mem_singleton] at h
    rcases h with h | rfl
    · split at h
      · rw [(List.mem_replicate.1 h).2]; trivial
      · split at h
        · exact hrep _ c h
        · simp at h
    · trivial
  · simp only [modeCalls, List.mem_append, List.mem_cons, List.not_mem_nil, or_false] at h
    rcases h with (rfl | rfl) | h
    · trivial
    · trivial
    · split at h
      · simp at h
      · exact hrep _ c h
      · rcases List.mem_append.1 h with h | h
        · simp only [List.mem_cons, List.not_mem_nil, or_false] at h
          rcases h with rfl | rfl <;> trivial
        · obtain ⟨k, -, rfl⟩ := List.mem_map.1 h
          show min ((k + 1) * R.p) (R.nf * R.nSave) - k * R.p ≤ R.p
          have : (k + 1) * R.p = k * R.p + R.p := by ring
          omega
  · simp only [storeCalls, List.mem_append, List.mem_singleton, or_assoc] at h
    rcases h with h | h | rfl | rfl
    · exact hsave c h
    · exact hsave c h
    · trivial
    · trivial

theorem fit_ends_with_barrier (R : FitRun) : (fitCalls R).getLast? = some .barrier := by
  simp [fitCalls, storeCalls]

/-- **C93 for a fit.** One rank raises somewhere in a fit: no rank that does not raise itself ever returns. -/
theorem fit_error_hangs (L : Lib) (R : FitRun) (fail : Nat → Option Nat) (q i : Nat) (hq : q < R.p) (hf : fail q = some i)
    (hi : i < (fitCalls R).length) (r : Nat) (hr : fail r = none) (n : Nat) (s : Nat → Nat)
    (hs : Reach L R.p (withFailures (fitCalls R) fail) n s) : ¬ Ended (withFailures (fitCalls R) fail) s r :=
  error_hangs L R.p _ fail (fit_ends_with_barrier R) q i hq hf hi r hr n s hs

/-- **C93 (fails, NetCDF).** A missing file, files of different shape or fewer than 9 snapshots: rank 0 raises, and on
    two or more ranks every other rank waits for ever in the broadcast. -/
theorem netcdf_error_hangs (L : Lib) (R : FitRun) (k : Nat) (hin : R.input = .netcdf k) (badFile : Bool) (nt : Nat)
    (hbad : badFile = true ∨ nt < 9) (r : Nat) (hr : r ≠ 0) (hrp : r < R.p) (n : Nat) (s : Nat → Nat)
    (hs : Reach L R.p (withFailures (fitCalls R) (ncInitFail badFile nt)) n s) :
    s r ≤ 3 ∧ ¬ Ended (withFailures (fitCalls R) (ncInitFail badFile nt)) s r := by
  have hcalls : withFailures (fitCalls R) (ncInitFail badFile nt) r = fitCalls R := by
    simp [withFailures, ncInitFail, hr]
  have h3 : ∀ j, j < 4 → (fitCalls R)[j]? = some (.bcast 0) := by
    intro j hj
    simp only [fitCalls, hin, initCalls]
    interval_cases j <;> rfl
  refine rank_stuck L R.p _ r 0 3 (.bcast 0) (by omega) (by rw [hcalls]; exact h3 3 (by omega)) rfl ?_ n s hs
  simp only [withFailures, ncInitFail, ↓reduceIte]
  rcases hbad with h | h
  · simp [h]
  · cases badFile
    · simp [h]
    · simp

/-- reading ranks of a chunk: every snapshot of the chunk is read by exactly one rank -/
theorem owner_exists (n p t : Nat) (hp : 0 < p) (ht : t < n) :
    ∃ q < p, (blockdist n p q).2 ≤ t ∧ t < (blockdist n p q).2 + (blockdist n p q).1 := by
  have h : ∀ m, m ≤ p → t < bound n p m → ∃ q < m, startOf n p q ≤ t ∧ t < startOf n p q + countOf n p q := by
    intro m
    induction m with
    | zero =>
      intro _ h0
      simp [bound, hp, blockdist_zero] at h0
    | succ m ih =>
      intro hm h1
      by_cases h2 : t < bound n p m
      · obtain ⟨q, hq, h3⟩ := ih (by omega) h2
        exact ⟨q, by omega, h3⟩
      · rw [bound_succ n p m (by omega)] at h1
        refine ⟨m, by omega, ?_, h1⟩
        simp only [bound, show m < p by omega, ↓reduceIte] at h2
        omega
  exact h p le_rfl (by simpa [bound] using ht)

theorem matReadFail_some (bad : Nat → Bool) (nt nc p t : Nat) (hp : 0 < p) (hnc : 0 < nc) (ht : t < nt) (hb : bad t = true) :
    ∃ q i, q < p ∧ matReadFail bad nt nc p q = some i ∧ i < 3 + 2 * nc := by
  obtain ⟨k, hk, h1, h2⟩ := owner_exists nt nc t hnc ht
  obtain ⟨q, hq, h3, h4⟩ := owner_exists (blockdist nt nc k).1 p (t - (blockdist nt nc k).2) hp (by omega)
  have hsome : (matReadFail bad nt nc p q).isSome := by
    rw [matReadFail, List.findSome?_isSome_iff]
    refine ⟨k, List.mem_range.2 hk, ?_⟩
    have : ((List.range (blockdist (blockdist nt nc k).1 p q).1).any fun j =>
        bad ((blockdist nt nc k).2 + (blockdist (blockdist nt nc k).1 p q).2 + j)) = true := by
      rw [List.any_eq_true]
      refine ⟨t - (blockdist nt nc k).2 - (blockdist (blockdist nt nc k).1 p q).2, List.mem_range.2 (by omega), ?_⟩
      rw [show (blockdist nt nc k).2 + (blockdist (blockdist nt nc k).1 p q).2 +
        (t - (blockdist nt nc k).2 - (blockdist (blockdist nt nc k).1 p q).2) = t by omega]
      exact hb
    simp only [this, ↓reduceIte, Option.isSome_some]
  obtain ⟨i, hi⟩ := Option.isSome_iff_exists.1 hsome
  refine ⟨q, i, hq, hi, ?_⟩
  rw [matReadFail] at hi
  obtain ⟨k', hk', h5⟩ := List.exists_of_findSome?_eq_some hi
  simp only at h5
  split at h5
  · simp only [Option.some.injEq] at h5
    have := List.mem_range.1 hk'
    omega
  · simp at h5

/-- **C93 (fails, MATLAB).** A value that is not finite in any file: the rank that reads the file raises, and every rank
    that reads no such file waits for ever. -/
theorem mat_error_hangs (L : Lib) (R : FitRun) (nc : Nat) (hin : R.input = .mat nc) (hnc : 0 < nc) (bad : Nat → Bool)
    (nt t : Nat) (ht : t < nt) (hb : bad t = true) (r : Nat) (hrp : r < R.p) (hr : matReadFail bad nt nc R.p r = none)
    (n : Nat) (s : Nat → Nat)
    (hs : Reach L R.p (withFailures (fitCalls R) (matReadFail bad nt nc R.p)) n s) :
    ¬ Ended (withFailures (fitCalls R) (matReadFail bad nt nc R.p)) s r := by
  obtain ⟨q, i, hq, hf, hi⟩ := matReadFail_some bad nt nc R.p t (by omega) hnc ht hb
  refine fit_error_hangs L R _ q i hq hf ?_ r hr n s hs
  have : 3 + 2 * nc ≤ (fitCalls R).length := by
    simp only [fitCalls, hin, initCalls, readCalls, List.length_append, List.length_flatten, List.map_replicate,
      List.length_cons, List.length_nil, List.sum_replicate, smul_eq_mul]
    omega
  omega

/-- **C93**, where the rank stops: a rank that raises has made the calls of the opening of the files and those of the chunks before chunk `k`, and reads a bad
    file in chunk `k`, and none in an earlier chunk. -/
theorem mat_error_position (R : FitRun) (nc : Nat) (hin : R.input = .mat nc) (bad : Nat → Bool) (nt r i : Nat)
    (h : matReadFail bad nt nc R.p r = some i) :
    ∃ k < nc, (fitCalls R).take i = [.bcast 0, .bcast 0, .bcast 0] ++ (List.replicate k [Coll.allreduce, .exchange]).flatten ∧
      ∀ k' ≤ k, (∃ j < (blockdist (blockdist nt nc k').1 R.p r).1,
        bad ((blockdist nt nc k').2 + (blockdist (blockdist nt nc k').1 R.p r).2 + j) = true) ↔ k' = k := by
  rw [matReadFail, List.findSome?_eq_some_iff] at h
  obtain ⟨l1, k, l2, hl, hk, hpre⟩ := h
  have hlen : l1.length = k := by
    have := congrArg (fun l => l[l1.length]?) hl
    have hlt : l1.length < nc := by
      have := congrArg List.length hl
      simp at this
      omega
    simpa [List.getElem?_range hlt] using this
  have hkn : k < nc := by
    have := congrArg List.length hl
    simp at this
    omega
  simp only at hk
  split at hk
  case isFalse => simp at hk
  rename_i hany
  simp only [Option.some.injEq] at hk
  refine ⟨k, hkn, ?_, ?_⟩
  · obtain ⟨d, rfl⟩ : ∃ d, nc = k + d := ⟨nc - k, by omega⟩
    have e : fitCalls R = ([.bcast 0, .bcast 0, .bcast 0] ++ (List.replicate k [Coll.allreduce, .exchange]).flatten) ++
        ((List.replicate d [Coll.allreduce, .exchange]).flatten ++ [.reduce 0] ++ setupCalls R ++ blockCalls R ++ modeCalls R ++ storeCalls) := by
      simp only [fitCalls, hin, initCalls, readCalls, List.replicate_add, List.flatten_append, List.append_assoc]
    rw [e]
    apply List.take_left'
    simp
    omega
  · intro k' hk'
    constructor
    · rintro ⟨j, hj, hb⟩
      by_contra hne
      have hmem : k' ∈ l1 := by
        have h1 : k' < l1.length := by omega
        have := congrArg (fun l => l[k']?) hl
        simp only [List.getElem?_range (show k' < nc by omega), List.getElem?_append_left h1] at this
        exact List.mem_of_getElem? this.symm
      have := hpre k' hmem
      simp only at this
      rw [if_pos (List.any_eq_true.2 ⟨j, List.mem_range.2 hj, hb⟩)] at this
      cases this
    · rintro rfl
      obtain ⟨j, hj, hb⟩ := List.any_eq_true.1 hany
      exact ⟨j, List.mem_range.1 hj, hb⟩

/-- six files on three ranks, one chunk; file 3 is bad: rank 1 raises, ranks 0 and 2 do not, and wait for ever -/
example : matReadFail (fun t => t == 3) 6 1 3 1 = some 3 ∧ matReadFail (fun t => t == 3) 6 1 3 0 = none ∧
    matReadFail (fun t => t == 3) 6 1 3 2 = none := by decide

/-! ### C94: stored blocks -/

/-- what every rank sees: all files of all blocks exist when the fit looks -/
def allExist (files : Nat → Bool) (nFiles : Nat) : Bool := (List.range nFiles).all files

theorem branch_first (nFiles nf : Nat) : ∃ c, (branchCalls nFiles nf false)[0]? = some c ∧ ∀ r q, mustWait c r q := by
  cases nFiles with
  | zero => exact ⟨.barrier, rfl, fun _ _ => trivial⟩
  | succ n => exact ⟨.allreduce, rfl, fun _ _ => trivial⟩

/-- invariant of the search for stored blocks -/
structure LookInv (p nFiles : Nat) (files0 : Nat → Bool) (S : LookState) : Prop where
  look : ∀ r < p, ∀ acc, S.phase r = .look acc → acc = (List.range acc.length).map files0 ∧ acc.length ≤ nFiles
  branch : ∀ r < p, ∀ b k, S.phase r = .branch b k → b = allExist files0 nFiles
  sync : ∀ r < p, ∀ k, S.phase r = .branch false (k + 1) → ∀ q < p, ∀ acc, S.phase q ≠ .look acc
  files : S.files ≠ files0 → ∀ q < p, ∀ acc, S.phase q ≠ .look acc

theorem look_inv (L : Lib) (p nFiles nf : Nat) (files0 : Nat → Bool) (S : LookState)
    (h : LookReach L p nFiles nf files0 S) : LookInv p nFiles files0 S := by
  induction h with
  | init =>
    refine ⟨fun r _ acc h => ?_, fun r _ b k h => ?_, fun r _ k h => ?_, fun h => absurd rfl h⟩
    · simp only [Phase.look.injEq] at h; subst h; simp
    · simp at h
    · simp at h
  | step _ hs ih =>
    rename_i S S1 _hp
    cases hs with
    | see r acc hr h hlen =>
      have hfiles : S.files = files0 := by
        by_contra hne
        exact ih.files hne r hr acc h
      refine ⟨fun q hq a ha => ?_, fun q hq b k hb => ?_, fun q hq k hk => ?_, fun hne => absurd hfiles hne⟩
      · by_cases e : q = r
        · simp only [e, ↓reduceIte, Phase.look.injEq] at ha
          subst ha
          obtain ⟨h1, h2⟩ := ih.look r hr acc h
          constructor
          · rw [List.length_append, List.length_singleton, List.range_succ, List.map_append, ← h1, hfiles]
            rfl
          · simp; omega
        · simp only [e, ↓reduceIte] at ha
          exact ih.look q hq a ha
      · by_cases e : q = r
        · simp [e] at hb
        · simp only [e, ↓reduceIte] at hb
          exact ih.branch q hq b k hb
      · by_cases e : q = r
        · simp [e] at hk
        · simp only [e, ↓reduceIte] at hk
          exact absurd h (ih.sync q hq k hk r hr acc)
    | decide r acc hr h hlen =>
      have hfiles : S.files = files0 := by
        by_contra hne
        exact ih.files hne r hr acc h
      refine ⟨fun q hq a ha => ?_, fun q hq b k hb => ?_, fun q hq k hk => ?_, fun hne => absurd hfiles hne⟩
      · by_cases e : q = r
        · simp [e] at ha
        · simp only [e, ↓reduceIte] at ha
          exact ih.look q hq a ha
      · by_cases e : q = r
        · simp only [e, ↓reduceIte, Phase.branch.injEq] at hb
          rw [← hb.1, (ih.look r hr acc h).1, hlen, decision, List.all_map]
          rfl
        · simp only [e, ↓reduceIte] at hb
          exact ih.branch q hq b k hb
      · by_cases e : q = r
        · simp [e] at hk
        · simp only [e, ↓reduceIte] at hk
          exact absurd h (ih.sync q hq k hk r hr acc)
    | call r b k c hr h hc hw =>
      have hback : ∀ q < p, ∀ a, (if q = r then Phase.branch b (k + 1) else S.phase q) = .look a → S.phase q = .look a := by
        intro q _ a ha
        by_cases e : q = r
        · simp [e] at ha
        · simpa [e] using ha
      have hnolook : b = false → ∀ q < p, ∀ a, S.phase q ≠ .look a := by
        rintro rfl q hq a ha
        cases k with
        | zero =>
          obtain ⟨c', hc', hmw⟩ := branch_first nFiles nf
          rw [hc] at hc'
          simp only [Option.some.injEq] at hc'
          subst hc'
          obtain ⟨b', k', h1, _⟩ := hw q hq (L.least _ _ _ (hmw r q))
          rw [ha] at h1
          simp at h1
        | succ k => exact ih.sync r hr k h q hq a ha
      refine ⟨fun q hq a ha => ih.look q hq a (hback q hq a ha), fun q hq b' k' hb => ?_, fun q hq k' hk q' hq' a ha => ?_,
        fun hne q hq a ha => ih.files hne q hq a (hback q hq a ha)⟩
      · by_cases e : q = r
        · simp only [e, ↓reduceIte, Phase.branch.injEq] at hb
          rw [← hb.1]
          exact ih.branch r hr b k h
        · simp only [e, ↓reduceIte] at hb
          exact ih.branch q hq b' k' hb
      · have ha' := hback q' hq' a ha
        by_cases e : q = r
        · simp only [e, ↓reduceIte, Phase.branch.injEq] at hk
          exact hnolook hk.1 q' hq' a ha'
        · simp only [e, ↓reduceIte] at hk
          exact ih.sync q hq k' hk q' hq' a ha'
    | create r j hr h hj =>
      exact ⟨ih.look, ih.branch, ih.sync, fun _ q hq a ha => ih.sync r hr (9 * j + 1) h q hq a ha⟩

/-- **C94.** With `reuse_blocks`, every rank decides for itself, file by file, while other ranks may already be further.
    For every library, schedule and set of files present at the start: every rank takes the branch "blocks are stored"
    exactly if all files were there at the start, so all ranks take the same branch; no file is created while a rank
    still looks. -/
theorem stored_blocks_agreed (L : Lib) (p nFiles nf : Nat) (files0 : Nat → Bool) (S : LookState)
    (h : LookReach L p nFiles nf files0 S) :
    (∀ r < p, ∀ b k, S.phase r = .branch b k → b = allExist files0 nFiles) ∧
    (∀ r < p, ∀ acc, S.phase r = .look acc → S.files = files0) := by
  have hi := look_inv L p nFiles nf files0 S h
  refine ⟨hi.branch, fun r hr acc ha => ?_⟩
  by_contra hne
  exact hi.files hne r hr acc ha

/-- two ranks, two files of which one exists: rank 0 has decided (not stored) while rank 1 has seen one file -/
example : ∃ S, LookReach libLeast 2 2 1 (fun i => i == 0) S ∧ S.phase 0 = .branch false 0 ∧ S.phase 1 = .look [true] := by
  refine ⟨_, .step (.step (.step (.step .init (.see _ 0 [] (by omega) rfl (by simp)))
    (.see _ 0 [true] (by omega) rfl (by simp))) (.decide _ 0 [true, false] (by omega) rfl rfl))
    (.see _ 1 [] (by omega) rfl (by simp)), rfl, rfl⟩

end Verif.Props
