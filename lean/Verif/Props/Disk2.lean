import Verif.Model.Disk2
import Verif.Props.Blocks
import Mathlib.Tactic.Common
import Mathlib.Tactic.Ring
import Mathlib.Algebra.BigOperators.Group.List.Basic
import Mathlib.Data.List.Nodup
/-
  C30-C32: writing one file per (frequency, mode) with `savefreq_disk2`.
-/
set_option linter.unusedSimpArgs false
namespace Verif.Props
open Verif Verif.Rd Verif.Disk2

/-! ### items of a pass -/

theorem items_filter (P total p r : Nat) (hr : r < P) :
    (items P total p).filter (fun i => decide (r = i % P)) = if p * P + r < total then [p * P + r] else [] := by
  have hP : 0 < P := by omega
  have hn : ∀ n, n ≤ P → (List.range' (p * P) n).filter (fun i => decide (r = i % P)) =
      if r < n then [p * P + r] else [] := by
    intro n
    induction n with
    | zero => intro _; simp
    | succ n ih =>
      intro hle
      rw [List.range'_concat, List.filter_append, ih (by omega)]
      have hm : (p * P + 1 * n) % P = n := by
        rw [Nat.one_mul, Nat.add_comm, Nat.add_mul_mod_self_right, Nat.mod_eq_of_lt (by omega)]
      by_cases h : r = n
      · subst h
        rw [List.filter_cons_of_pos (by simpa using hm.symm)]; simp
      · have h1 : (r < n + 1) = (r < n) := by simp; omega
        rw [List.filter_cons_of_neg (by rw [hm]; simpa using h)]
        simp [h1]
  unfold items
  simp only
  have e : (p + 1) * P = p * P + P := by ring
  rw [hn _ (by rw [e]; omega), e]
  congr 1
  simp only [eq_iff_iff]
  omega

theorem mem_items_pass (P total p i : Nat) (h : i ∈ items P total p) : i < total := by
  unfold items at h
  simp only [List.mem_range'_1] at h
  omega

theorem lt_nPasses (P total p : Nat) (hP : 0 < P) : p < nPasses P total ↔ p * P < total := by
  unfold nPasses
  rw [Nat.lt_iff_add_one_le, Nat.le_div_iff_mul_le hP]
  have : (p + 1) * P = p * P + P := by ring
  omega

/-! ### counting sends and receives -/

theorem nSends_append (d : Nat) (l l' : List Op) : nSends d (l ++ l') = nSends d l + nSends d l' := by
  simp [nSends]
theorem nRecvs_append (d : Nat) (l l' : List Op) : nRecvs d (l ++ l') = nRecvs d l + nRecvs d l' := by
  simp [nRecvs]
theorem sentTo_append (d : Nat) (l l' : List Op) : sentTo d (l ++ l') = sentTo d l ++ sentTo d l' := by
  simp [sentTo]
theorem recvFrom_append (d : Nat) (l l' : List Op) : recvFrom d (l ++ l') = recvFrom d l ++ recvFrom d l' := by
  simp [recvFrom]
theorem saves_append (l l' : List Op) : saves (l ++ l') = saves l ++ saves l' := by
  simp [saves]

theorem nSends_eq (d : Nat) (l : List Op) : nSends d l = (sentTo d l).length := by
  induction l with
  | nil => rfl
  | cons o os ih =>
    simp only [nSends, sentTo] at ih ⊢
    cases o with
    | send d' i => by_cases h : d' = d <;> simp [List.filter_cons, h, ih]
    | _ => simp [List.filter_cons, ih]

theorem nRecvs_eq (d : Nat) (l : List Op) : nRecvs d l = (recvFrom d l).length := by
  induction l with
  | nil => rfl
  | cons o os ih =>
    simp only [nRecvs, recvFrom] at ih ⊢
    cases o with
    | recv d' i => by_cases h : d' = d <;> simp [List.filter_cons, h, ih]
    | _ => simp [List.filter_cons, ih]

theorem sentTo_recvs (P d i : Nat) : sentTo d ((List.range P).map fun irank => Op.recv irank i) = [] := by
  simp [sentTo, List.filterMap_eq_nil_iff]

theorem recvFrom_recvs (P s i : Nat) (hs : s < P) :
    recvFrom s ((List.range P).map fun irank => Op.recv irank i) = [i] := by
  have : ∀ n, recvFrom s ((List.range n).map fun irank => Op.recv irank i) = if s < n then [i] else [] := by
    intro n
    induction n with
    | zero => simp [recvFrom]
    | succ n ih =>
      rw [List.range_succ, List.map_append, recvFrom_append, ih]
      by_cases h : s = n
      · subst h; simp [recvFrom]
      · have h1 : (s < n + 1) = (s < n) := by simp; omega
        simp [recvFrom, h1, Ne.symm h]
  rw [this, if_pos hs]

theorem posts_sentTo (P rank d : Nat) (is : List Nat) :
    sentTo d (posts P rank is) = is.filter fun i => decide (d = i % P) := by
  induction is with
  | nil => rfl
  | cons i is ih =>
    rw [posts, List.flatMap_cons, ← posts, sentTo_append, ih]
    have : sentTo d (Op.send (i % P) i :: (if rank = i % P then (List.range P).map fun irank => Op.recv irank i else [])) =
        if d = i % P then [i] else [] := by
      rw [← List.singleton_append, sentTo_append]
      have h2 : sentTo d (if rank = i % P then (List.range P).map fun irank => Op.recv irank i else []) = [] := by
        split
        · exact sentTo_recvs P d i
        · rfl
      rw [h2, List.append_nil]
      by_cases h : d = i % P
      · simp [sentTo, h]
      · simp [sentTo, h, Ne.symm h]
    simp only [this]
    by_cases h : d = i % P
    · rw [List.filter_cons_of_pos (by simpa using h), if_pos h]; rfl
    · rw [List.filter_cons_of_neg (by simpa using h), if_neg h]; rfl

theorem posts_recvFrom (P rank s : Nat) (is : List Nat) (hs : s < P) :
    recvFrom s (posts P rank is) = is.filter fun i => decide (rank = i % P) := by
  induction is with
  | nil => rfl
  | cons i is ih =>
    rw [posts, List.flatMap_cons, ← posts, recvFrom_append, ih]
    have : recvFrom s (Op.send (i % P) i :: (if rank = i % P then (List.range P).map fun irank => Op.recv irank i else [])) =
        if rank = i % P then [i] else [] := by
      rw [← List.singleton_append, recvFrom_append]
      have h2 : recvFrom s [Op.send (i % P) i] = [] := rfl
      rw [h2, List.nil_append]
      split
      · exact recvFrom_recvs P s i hs
      · rfl
    simp only [this]
    by_cases h : rank = i % P
    · rw [List.filter_cons_of_pos (by simpa using h), if_pos h]; rfl
    · rw [List.filter_cons_of_neg (by simpa using h), if_neg h]; rfl

theorem posts_nonblocking (P rank : Nat) (is : List Nat) (o : Op) (h : o ∈ posts P rank is) :
    o ≠ .waitS ∧ o ≠ .waitR := by
  simp only [posts, List.mem_flatMap, List.mem_cons] at h
  obtain ⟨i, _, h | h⟩ := h
  · subst h; simp
  · split at h
    · simp only [List.mem_map] at h
      obtain ⟨j, _, rfl⟩ := h
      simp
    · simp at h

theorem finish_sentTo (P ns rank d : Nat) (is : List Nat) : sentTo d (finish P ns rank is) = [] := by
  unfold finish; split <;> rfl
theorem finish_recvFrom (P ns rank d : Nat) (is : List Nat) : recvFrom d (finish P ns rank is) = [] := by
  unfold finish; split <;> rfl

/-! ### program prefixes -/

/-- the operations of passes `0 … p-1` -/
def before (P nf ns rank p : Nat) : List Op :=
  (List.range p).flatMap fun p =>
    posts P rank (items P (nf * ns) p) ++ finish P ns rank (items P (nf * ns) p)

theorem before_succ (P nf ns rank p : Nat) : before P nf ns rank (p + 1) =
    before P nf ns rank p ++ (posts P rank (items P (nf * ns) p) ++ finish P ns rank (items P (nf * ns) p)) := by
  simp [before, List.range_succ]

theorem prog_eq (P nf ns rank : Nat) : prog P nf ns rank = before P nf ns rank (nPasses P (nf * ns)) := rfl

theorem before_prefix (P nf ns rank : Nat) {p p' : Nat} (h : p ≤ p') :
    before P nf ns rank p <+: before P nf ns rank p' := by
  induction p' with
  | zero => rw [Nat.le_zero.1 h]
  | succ n ih =>
    by_cases hp : p = n + 1
    · rw [hp]
    · rw [before_succ]; exact (ih (by omega)).trans (List.prefix_append _ _)

/-- file numbers handled by writer `d` in passes `0 … p-1` -/
def writerItems (P total d p : Nat) : List Nat :=
  (List.range p).flatMap fun p => if p * P + d < total then [p * P + d] else []

theorem before_sentTo (P nf ns rank d p : Nat) (hd : d < P) :
    sentTo d (before P nf ns rank p) = writerItems P (nf * ns) d p := by
  induction p with
  | zero => rfl
  | succ p ih =>
    rw [before_succ, sentTo_append, sentTo_append, ih, posts_sentTo, finish_sentTo, items_filter _ _ _ _ hd]
    simp [writerItems, List.range_succ]

theorem before_recvFrom (P nf ns rank s p : Nat) (hr : rank < P) (hs : s < P) :
    recvFrom s (before P nf ns rank p) = writerItems P (nf * ns) rank p := by
  induction p with
  | zero => rfl
  | succ p ih =>
    rw [before_succ, recvFrom_append, recvFrom_append, ih, posts_recvFrom _ _ _ _ hs, finish_recvFrom,
      items_filter _ _ _ _ hr]
    simp [writerItems, List.range_succ]

/-- **C31**, matching: the file numbers of the messages sent by rank `s` to rank `d`, in order, are those for
    which rank `d` posted its receives from `s`, in order.  As MPI matches them in order, the writer of a file
    receives from every rank the part of that very file. -/
theorem disk2_messages_match (P nf ns s d : Nat) (hs : s < P) (hd : d < P) :
    sentTo d (prog P nf ns s) = recvFrom s (prog P nf ns d) := by
  rw [prog_eq, prog_eq, before_sentTo P nf ns s d _ hd, before_recvFrom P nf ns d s _ hd hs]

/-! ### C30 -/

theorem writeVar_eq (P rank : Nat) (is : List Nat) :
    writeVar P rank is = (is.filter fun i => decide (rank = i % P)).getLast? := by
  unfold writeVar
  have : ∀ (is : List Nat) (w : Option Nat),
      is.foldl (fun w i => if rank = i % P then some i else w) w =
        match (is.filter fun i => decide (rank = i % P)).getLast? with
        | some x => some x
        | none => w := by
    intro is
    induction is with
    | nil => intro w; rfl
    | cons i is ih =>
      intro w
      rw [List.foldl_cons, ih]
      by_cases h : rank = i % P
      · rw [List.filter_cons_of_pos (by simpa using h), if_pos h, List.getLast?_cons]
        cases (is.filter fun i => decide (rank = i % P)).getLast? <;> rfl
      · rw [List.filter_cons_of_neg (by simpa using h), if_neg h]
  rw [this is none]
  cases (is.filter fun i => decide (rank = i % P)).getLast? <;> rfl

theorem saves_posts (P rank : Nat) (is : List Nat) : saves (posts P rank is) = [] := by
  unfold saves
  rw [List.filterMap_eq_nil_iff]
  intro o ho
  simp only [posts, List.mem_flatMap, List.mem_cons] at ho
  obtain ⟨i, _, h | h⟩ := ho
  · subst h; rfl
  · split at h
    · simp only [List.mem_map] at h
      obtain ⟨j, _, rfl⟩ := h
      rfl
    · simp at h

theorem prog_saves (P nf ns rank : Nat) (hr : rank < P) :
    saves (prog P nf ns rank) = (writerItems P (nf * ns) rank (nPasses P (nf * ns))).map fun i => (i / ns, i % ns) := by
  rw [prog_eq]
  induction nPasses P (nf * ns) with
  | zero => rfl
  | succ p ih =>
    rw [before_succ, saves_append, saves_append, ih, saves_posts]
    have hw : saves (finish P ns rank (items P (nf * ns) p)) =
        (if p * P + rank < nf * ns then [p * P + rank] else []).map fun i => (i / ns, i % ns) := by
      unfold finish
      rw [writeVar_eq, items_filter _ _ _ _ hr]
      split
      · rename_i i h
        split at h
        · simp at h; subst h; simp [saves, *]
        · simp at h
      · rename_i h
        split at h
        · simp at h
        · simp [saves, *]
    rw [hw]
    simp [writerItems, List.range_succ]

theorem mem_writerItems (P total d p i : Nat) :
    i ∈ writerItems P total d p ↔ ∃ q, q < p ∧ i = q * P + d ∧ i < total := by
  simp only [writerItems, List.mem_flatMap, List.mem_range]
  constructor
  · rintro ⟨q, hq, h⟩
    split at h
    · simp at h; exact ⟨q, hq, h, by omega⟩
    · simp at h
  · rintro ⟨q, hq, h, ht⟩
    refine ⟨q, hq, ?_⟩
    rw [if_pos (by omega)]; simp [h]

theorem writerItems_nodup (P total d p : Nat) (hP : 0 < P) : (writerItems P total d p).Nodup := by
  induction p with
  | zero => simp [writerItems]
  | succ p ih =>
    have e : writerItems P total d (p + 1) = writerItems P total d p ++ (if p * P + d < total then [p * P + d] else []) := by
      simp [writerItems, List.range_succ]
    rw [e]
    split
    · rw [List.nodup_append]
      refine ⟨ih, by simp, ?_⟩
      intro a ha b hb
      simp at hb
      rw [mem_writerItems] at ha
      obtain ⟨q, hq, h, _⟩ := ha
      subst hb
      intro hab
      have h1 : q * P = p * P := by omega
      have := Nat.eq_of_mul_eq_mul_right hP h1
      omega
    · simpa using ih

/-- **C30 (one mode per pass).**  In the pass with the file numbers `items P (nf * ns) p` the operations after the posting
    loop contain at most one save on every rank, and all receives posted by the rank in that pass belong to one file, the one
    it saves. -/
theorem disk2_one_per_pass (P nf ns p r : Nat) (hr : r < P) :
    ((∀ op ∈ posts P r (items P (nf * ns) p), ∀ s i, op ≠ Op.recv s i) ∧
        saves (finish P ns r (items P (nf * ns) p)) = []) ∨
      ∃ i, i < nf * ns ∧ i % P = r ∧ (∀ s j, Op.recv s j ∈ posts P r (items P (nf * ns) p) → j = i) ∧
        saves (finish P ns r (items P (nf * ns) p)) = [(i / ns, i % ns)] := by
  have hf := items_filter P (nf * ns) p r hr
  have hmem : ∀ i, i ∈ items P (nf * ns) p ∧ r = i % P → p * P + r < nf * ns ∧ i = p * P + r := by
    intro i hi
    have : i ∈ (items P (nf * ns) p).filter fun i => r = i % P := by simpa using hi
    rw [hf] at this
    split at this
    · rename_i h; exact ⟨h, by simpa using this⟩
    · simp at this
  have hrecv : ∀ s j, Op.recv s j ∈ posts P r (items P (nf * ns) p) → j ∈ items P (nf * ns) p ∧ r = j % P := by
    intro s j h
    simp only [posts, List.mem_flatMap] at h
    obtain ⟨i, hi, h⟩ := h
    simp only [List.mem_cons, reduceCtorEq, false_or] at h
    split at h
    · rename_i hw
      simp only [List.mem_map] at h
      obtain ⟨q, _, h⟩ := h
      injection h with h1 h2
      subst h2
      exact ⟨hi, hw⟩
    · simp at h
  have hw := writeVar_eq P r (items P (nf * ns) p)
  rw [hf] at hw
  by_cases h : p * P + r < nf * ns
  · right
    refine ⟨p * P + r, h, ?_, fun s j hj => (hmem j (hrecv s j hj)).2, ?_⟩
    · rw [Nat.mul_comm, Nat.mul_add_mod]; exact Nat.mod_eq_of_lt hr
    · rw [if_pos h] at hw
      simp [finish, hw, saves]
  · left
    refine ⟨fun op hop s i e => ?_, ?_⟩
    · subst e; exact h (hmem i (hrecv s i hop)).1
    · rw [if_neg h] at hw
      simp [finish, hw, saves]

/-- **C30.** For every number of ranks, frequencies and saved modes: among all ranks' programs each file
    `(f, m)` with `f < n_freq`, `m < n_modes_save` is saved exactly once, and no other file is saved. -/
theorem disk2_saved_exactly_once (P nf ns : Nat) (hP : 0 < P) (f m : Nat) :
    ((List.range P).flatMap fun r => saves (prog P nf ns r)).count (f, m) =
      if f < nf ∧ m < ns then 1 else 0 := by
  -- the concatenation has no duplicates
  rcases Nat.eq_zero_or_pos ns with hns | hns
  · subst hns
    have : nPasses P (nf * 0) = 0 := by
      by_contra h
      have := (lt_nPasses P (nf * 0) 0 hP).1 (by omega)
      simp at this
    have h0 : ∀ r, saves (prog P nf 0 r) = [] := by
      intro r; rw [prog_eq, this]; rfl
    have h1 : ((List.range P).flatMap fun r => saves (prog P nf 0 r)) = [] := by
      rw [List.flatMap_eq_nil_iff]; intro r _; exact h0 r
    rw [h1]; simp
  have hinj : ∀ i j : Nat, (i / ns, i % ns) = (j / ns, j % ns) → i = j := by
    intro i j h
    simp only [Prod.mk.injEq] at h
    rw [← Nat.div_add_mod i ns, ← Nat.div_add_mod j ns, h.1, h.2]
  have hnd : ((List.range P).flatMap fun r => saves (prog P nf ns r)).Nodup := by
    rw [List.nodup_flatMap]
    refine ⟨?_, ?_⟩
    · intro r hr
      rw [prog_saves P nf ns r (by simpa using hr)]
      exact (writerItems_nodup P _ r _ hP).map (fun i j h => hinj i j h)
    · refine List.Pairwise.imp_of_mem ?_ (List.nodup_range (n := P))
      intro a b ha hb hab
      simp only [List.mem_range] at ha hb
      simp only [Function.onFun]
      rw [prog_saves P nf ns a ha, prog_saves P nf ns b hb]
      intro x hx hx'
      simp only [List.mem_map, mem_writerItems] at hx hx'
      obtain ⟨i, ⟨q, _, hi, _⟩, rfl⟩ := hx
      obtain ⟨j, ⟨q', _, hj, _⟩, hx'⟩ := hx'
      have := hinj _ _ hx'
      subst this
      have h1 : (q * P + a) % P = a := by
        rw [Nat.add_comm, Nat.add_mul_mod_self_right, Nat.mod_eq_of_lt ha]
      have h2 : (q' * P + b) % P = b := by
        rw [Nat.add_comm, Nat.add_mul_mod_self_right, Nat.mod_eq_of_lt hb]
      exact hab (by rw [← h1, ← h2, ← hi, ← hj])
  have hmem : (f, m) ∈ ((List.range P).flatMap fun r => saves (prog P nf ns r)) ↔ f < nf ∧ m < ns := by
    rw [List.mem_flatMap]
    constructor
    · rintro ⟨r, hr, hx⟩
      rw [prog_saves P nf ns r (by simpa using hr)] at hx
      simp only [List.mem_map, mem_writerItems] at hx
      obtain ⟨i, ⟨q, _, _, hi⟩, hx⟩ := hx
      simp only [Prod.mk.injEq] at hx
      refine ⟨?_, ?_⟩
      · rw [← hx.1]; exact Nat.div_lt_of_lt_mul (by rwa [Nat.mul_comm])
      · rw [← hx.2]; exact Nat.mod_lt _ hns
    · rintro ⟨hf, hm⟩
      have hlt : f * ns + m < nf * ns := by
        have : (f + 1) * ns ≤ nf * ns := Nat.mul_le_mul_right _ (by omega)
        have : (f + 1) * ns = f * ns + ns := by ring
        omega
      refine ⟨(f * ns + m) % P, by simpa using Nat.mod_lt _ hP, ?_⟩
      rw [prog_saves P nf ns _ (Nat.mod_lt _ hP)]
      simp only [List.mem_map, mem_writerItems]
      refine ⟨f * ns + m, ⟨(f * ns + m) / P, ?_, ?_, hlt⟩, ?_⟩
      · rw [lt_nPasses P _ _ hP]
        have := Nat.div_mul_le_self (f * ns + m) P
        omega
      · have := Nat.div_add_mod (f * ns + m) P
        rw [Nat.mul_comm] at this; omega
      · have h1 : (f * ns + m) / ns = f := by
          rw [Nat.add_comm, Nat.add_mul_div_right _ _ hns, Nat.div_eq_of_lt hm, Nat.zero_add]
        have h2 : (f * ns + m) % ns = m := by
          rw [Nat.add_comm, Nat.add_mul_mod_self_right, Nat.mod_eq_of_lt hm]
        rw [h1, h2]
  rw [hnd.count]
  simp only [hmem]

/-! ### C32 -/

theorem take_of_prefix {α} {l l' : List α} (h : l <+: l') (n : Nat) (hn : l.length ≤ n) : l <+: l'.take n := by
  obtain ⟨t, rfl⟩ := h
  rw [List.take_append, List.take_of_length_le hn]
  exact List.prefix_append _ _

theorem nRecvs_mono {l l' : List Op} (h : l <+: l') (s : Nat) : nRecvs s l ≤ nRecvs s l' := by
  obtain ⟨t, rfl⟩ := h; rw [nRecvs_append]; omega
theorem nSends_mono {l l' : List Op} (h : l <+: l') (s : Nat) : nSends s l ≤ nSends s l' := by
  obtain ⟨t, rfl⟩ := h; rw [nSends_append]; omega

/-- **C32**, progress: in *every* state of the parallel program (any progress of any rank), if some rank has
    not finished, some rank can execute its next operation – no deadlock, whatever the schedule. -/
theorem disk2_no_deadlock (P nf ns : Nat) (pc : Nat → Nat) (r : Nat) (hr : r < P)
    (hpc : pc r < (prog P nf ns r).length) :
    ∃ q, q < P ∧ enabled P (prog P nf ns) pc q := by
  -- least pass not completed by somebody
  have hex : ∃ p, ∃ q, q < P ∧ pc q < (before P nf ns q (p + 1)).length ∧ p < nPasses P (nf * ns) := by
    rw [prog_eq] at hpc
    have h0 : nPasses P (nf * ns) ≠ 0 := by
      intro h; rw [h] at hpc; simp [before] at hpc
    refine ⟨nPasses P (nf * ns) - 1, r, hr, ?_, by omega⟩
    rwa [show nPasses P (nf * ns) - 1 + 1 = nPasses P (nf * ns) by omega]
  classical
  obtain ⟨q, hq, hqlt, hp⟩ := Nat.find_spec hex
  set p := Nat.find hex with hpdef
  have hmin : ∀ q', q' < P → (before P nf ns q' p).length ≤ pc q' := by
    intro q' hq'
    by_contra hlt
    rcases Nat.eq_zero_or_pos p with h0 | h0
    · rw [h0] at hlt; simp [before] at hlt
    · exact Nat.find_min hex (show p - 1 < p by omega)
        ⟨q', hq', by rw [show p - 1 + 1 = p by omega]; omega, by omega⟩
  have hpre : ∀ q' : Nat, before P nf ns q' p ++ posts P q' (items P (nf * ns) p) <+: prog P nf ns q' := by
    intro q'
    rw [prog_eq]
    refine List.IsPrefix.trans ?_ (before_prefix P nf ns q' (show p + 1 ≤ nPasses P (nf * ns) by omega))
    rw [before_succ, ← List.append_assoc]
    exact List.prefix_append _ _
  by_cases hposting : ∃ q', q' < P ∧
      pc q' < (before P nf ns q' p ++ posts P q' (items P (nf * ns) p)).length
  · -- somebody is still posting: not blocked
    obtain ⟨q', hq', hlt⟩ := hposting
    refine ⟨q', hq', ?_⟩
    obtain ⟨t, ht⟩ := hpre q'
    have hget : (prog P nf ns q')[pc q']? =
        (posts P q' (items P (nf * ns) p))[pc q' - (before P nf ns q' p).length]? := by
      rw [← ht, List.getElem?_append_left hlt, List.getElem?_append_right (hmin q' hq')]
    unfold enabled
    rw [hget]
    have hlt2 : pc q' - (before P nf ns q' p).length < (posts P q' (items P (nf * ns) p)).length := by
      rw [List.length_append] at hlt; have := hmin q' hq'; omega
    rw [List.getElem?_eq_getElem hlt2]
    have hnb := posts_nonblocking P q' _ _ (List.getElem_mem hlt2)
    split
    · simp at *
    · rename_i h; simp only [Option.some.injEq] at h; exact absurd h hnb.1
    · rename_i h; simp only [Option.some.injEq] at h; exact absurd h hnb.2
    · trivial
  · -- everybody has posted everything of pass `p`
    have hall : ∀ q', q' < P → (before P nf ns q' p ++ posts P q' (items P (nf * ns) p)).length ≤ pc q' := by
      intro q' hq'
      by_contra h
      exact hposting ⟨q', hq', by omega⟩
    have hprefix : ∀ q', q' < P → before P nf ns q' p ++ posts P q' (items P (nf * ns) p) <+:
        (prog P nf ns q').take (pc q') := fun q' hq' => take_of_prefix (hpre q') _ (hall q' hq')
    refine ⟨q, hq, ?_⟩
    -- position inside the tail of pass p
    have hk := hall q hq
    obtain ⟨k, hk⟩ : ∃ k, pc q = (before P nf ns q p ++ posts P q (items P (nf * ns) p)).length + k :=
      ⟨pc q - (before P nf ns q p ++ posts P q (items P (nf * ns) p)).length, by omega⟩
    have hklt : k < (finish P ns q (items P (nf * ns) p)).length := by
      rw [before_succ, ← List.append_assoc, List.length_append] at hqlt; omega
    obtain ⟨t, ht⟩ := before_prefix P nf ns q (show p + 1 ≤ nPasses P (nf * ns) by omega)
    rw [before_succ, ← List.append_assoc, ← prog_eq] at ht
    have hget : (prog P nf ns q)[pc q]? = (finish P ns q (items P (nf * ns) p))[k]? := by
      rw [← ht, List.getElem?_append_left (by rw [List.length_append]; omega),
        List.getElem?_append_right (by omega), hk, Nat.add_sub_cancel_left]
    have htake : (prog P nf ns q).take (pc q) = (before P nf ns q p ++ posts P q (items P (nf * ns) p)) ++
        (finish P ns q (items P (nf * ns) p)).take k := by
      rw [← ht, List.take_append_of_le_length (by rw [List.length_append]; omega), hk, List.take_length_add_append]
    have hcntS : ∀ d, d < P → nSends d ((prog P nf ns q).take (pc q)) =
        (writerItems P (nf * ns) d (p + 1)).length := by
      intro d hd
      rw [nSends_eq, htake, sentTo_append]
      have h0 : sentTo d ((finish P ns q (items P (nf * ns) p)).take k) = [] := by
        apply List.eq_nil_of_length_eq_zero
        rw [← nSends_eq]
        have := nSends_mono (List.take_prefix k (finish P ns q (items P (nf * ns) p))) d
        rw [nSends_eq d (finish _ _ _ _), finish_sentTo] at this
        simpa using this
      rw [h0, List.append_nil, ← before_sentTo P nf ns q d (p + 1) hd, before_succ, sentTo_append, sentTo_append,
        sentTo_append, finish_sentTo, List.append_nil]
    have hcntR : ∀ s, s < P → nRecvs s ((prog P nf ns q).take (pc q)) =
        (writerItems P (nf * ns) q (p + 1)).length := by
      intro s hs
      rw [nRecvs_eq, htake, recvFrom_append]
      have h0 : recvFrom s ((finish P ns q (items P (nf * ns) p)).take k) = [] := by
        apply List.eq_nil_of_length_eq_zero
        rw [← nRecvs_eq]
        have := nRecvs_mono (List.take_prefix k (finish P ns q (items P (nf * ns) p))) s
        rw [nRecvs_eq s (finish _ _ _ _), finish_recvFrom] at this
        simpa using this
      rw [h0, List.append_nil, ← before_recvFrom P nf ns q s (p + 1) hq hs, before_succ, recvFrom_append,
        recvFrom_append, recvFrom_append, finish_recvFrom, List.append_nil]
    have hgeR : ∀ d, d < P → (writerItems P (nf * ns) d (p + 1)).length ≤ nRecvs q ((prog P nf ns d).take (pc d)) := by
      intro d hd
      refine le_trans (Nat.le_of_eq ?_) (nRecvs_mono (hprefix d hd) q)
      rw [nRecvs_eq, ← before_recvFrom P nf ns d q (p + 1) hd hq, before_succ, recvFrom_append, recvFrom_append,
        recvFrom_append, finish_recvFrom, List.append_nil]
    have hgeS : ∀ s, s < P → (writerItems P (nf * ns) q (p + 1)).length ≤ nSends q ((prog P nf ns s).take (pc s)) := by
      intro s hs
      refine le_trans (Nat.le_of_eq ?_) (nSends_mono (hprefix s hs) q)
      rw [nSends_eq, ← before_sentTo P nf ns s q (p + 1) hq, before_succ, sentTo_append, sentTo_append,
        sentTo_append, finish_sentTo, List.append_nil]
    unfold enabled
    rw [hget, List.getElem?_eq_getElem hklt]
    split
    · simp at *
    · intro d hd; rw [hcntS d hd]; exact hgeR d hd
    · intro s hs; rw [hcntR s hs]; exact hgeS s hs
    · trivial

/-- Every step executes one operation of one rank, so no execution is longer than the programs together. -/
theorem disk2_step_measure (P nf ns : Nat) (pc pc' : Nat → Nat) (h : Step P (prog P nf ns) pc pc') :
    ((List.range P).map pc').sum = ((List.range P).map pc).sum + 1 ∧
    ∀ q, pc q ≤ (prog P nf ns q).length → pc' q ≤ (prog P nf ns q).length := by
  obtain ⟨r, hr, hen, rfl⟩ := h
  constructor
  · have : ∀ n, ((List.range n).map fun q => if q = r then pc q + 1 else pc q).sum =
        ((List.range n).map pc).sum + if r < n then 1 else 0 := by
      intro n
      induction n with
      | zero => simp
      | succ n ih =>
        rw [List.range_succ, List.map_append, List.sum_append, List.map_append, List.sum_append, ih]
        simp only [List.map_cons, List.map_nil, List.sum_cons, List.sum_nil]
        by_cases h : n = r
        · subst h; simp; omega
        · have h1 : (r < n + 1) = (r < n) := by simp; omega
          simp only [h, h1, ↓reduceIte]; omega
    rw [this P, if_pos hr]
  · intro q hq
    by_cases h : q = r
    · subst h
      simp only [↓reduceIte]
      unfold enabled at hen
      split at hen
      · exact absurd hen (by simp)
      all_goals
        rename_i hx
        have := (List.getElem?_eq_some_iff.1 hx).1
        omega
    · simpa [h] using hq

/-- executions -/
inductive Run (P nf ns : Nat) : (Nat → Nat) → Nat → Prop
  | init : Run P nf ns (fun _ => 0) 0
  | step {pc pc' n} : Run P nf ns pc n → Step P (prog P nf ns) pc pc' → Run P nf ns pc' (n + 1)

/-- **C32.** Every execution has at most as many steps as there are operations, and one that cannot be
    continued has completed the programs of all ranks (so every file was written). -/
theorem disk2_terminates (P nf ns : Nat) (pc : Nat → Nat) (n : Nat) (h : Run P nf ns pc n) :
    n ≤ ((List.range P).map fun r => (prog P nf ns r).length).sum ∧
    ((¬ ∃ pc', Step P (prog P nf ns) pc pc') → ∀ r, r < P → pc r = (prog P nf ns r).length) := by
  have hinv : ((List.range P).map pc).sum = n ∧ ∀ q, pc q ≤ (prog P nf ns q).length := by
    induction h with
    | init => refine ⟨?_, fun q => Nat.zero_le _⟩; simp
    | step _ hs ih =>
      obtain ⟨h1, h2⟩ := disk2_step_measure P nf ns _ _ hs
      exact ⟨by rw [h1, ih.1], fun q => h2 q (ih.2 q)⟩
  constructor
  · rw [← hinv.1]
    have : ∀ l : List Nat, (l.map pc).sum ≤ (l.map fun r => (prog P nf ns r).length).sum := by
      intro l
      induction l with
      | nil => simp
      | cons x xs ih =>
        simp only [List.map_cons, List.sum_cons]
        exact Nat.add_le_add (hinv.2 x) ih
    exact this _
  · intro hstuck r hr
    by_contra hne
    obtain ⟨q, hq, hen⟩ := disk2_no_deadlock P nf ns pc r hr (by have := hinv.2 r; omega)
    exact hstuck ⟨_, q, hq, hen, rfl⟩

example : prog 2 1 3 0 = [.send 0 0, .recv 0 0, .recv 1 0, .send 1 1, .waitS, .waitR, .save 0 0,
    .send 0 2, .recv 0 2, .recv 1 2, .waitS, .waitR, .save 0 2] := by decide

/-! ### C31: assembly of one file -/

theorem sum_take_le (counts : List Nat) (mx : Nat) (h : ∀ c ∈ counts, c ≤ mx) (k : Nat) :
    (counts.take k).sum ≤ k * mx := by
  induction counts generalizing k with
  | nil => simp
  | cons c cs ih =>
    cases k with
    | zero => simp
    | succ k =>
      have := ih (fun x hx => h x (by simp [hx])) k
      have := h c (by simp)
      simp only [List.take_succ_cons, List.sum_cons]
      have e : (k + 1) * mx = k * mx + mx := by ring
      omega

theorem flatten_const_drop {α} (ls : List (List α)) (mx : Nat) (h : ∀ l ∈ ls, l.length = mx) (k : Nat) :
    ls.flatten.drop (k * mx) = (ls.drop k).flatten := by
  induction ls generalizing k with
  | nil => simp
  | cons l ls ih =>
    cases k with
    | zero => simp
    | succ k =>
      have hl := h l (by simp)
      rw [List.flatten_cons, List.drop_succ_cons, ← ih (fun x hx => h x (by simp [hx])) k]
      have e : (k + 1) * mx = l.length + k * mx := by rw [hl]; ring
      rw [e, List.drop_length_add_append]

theorem sum_take_succ (l : List Nat) (k : Nat) : (l.take (k + 1)).sum = (l.take k).sum + l.getD k 0 := by
  induction l generalizing k with
  | nil => simp
  | cons x xs ih =>
    cases k with
    | zero => simp
    | succ k =>
      simp only [List.take_succ_cons, List.sum_cons, List.getD_cons_succ, ih k]; omega

theorem sum_map_length_flatten {α} (ls : List (List α)) : ls.flatten.length = (ls.map List.length).sum := by
  rw [List.length_flatten]

/-- Loop invariant of the compaction. -/
theorem compact_spec {α} (zero : α) (msgs : List (List α)) (mx : Nat) (h : ∀ m ∈ msgs, m.length ≤ mx) :
    ∃ d, compact mx (msgs.map List.length) (recvData zero mx msgs) = some d ∧
      d.length = msgs.length * mx ∧ d.take (msgs.map List.length).sum = msgs.flatten := by
  set counts := msgs.map List.length with hcounts
  have hpadlen : ∀ l ∈ msgs.map (padded zero mx), l.length = mx := by
    intro l hl
    obtain ⟨m, hm, rfl⟩ := List.mem_map.1 hl
    have := h m hm
    simp [padded]; omega
  have hcle : ∀ c ∈ counts, c ≤ mx := by
    intro c hc
    obtain ⟨m, hm, rfl⟩ := List.mem_map.1 hc
    exact h m hm
  have hdl : (recvData zero mx msgs).length = msgs.length * mx := by
    unfold recvData
    have : ∀ ls : List (List α), (∀ l ∈ ls, l.length = mx) → ls.flatten.length = ls.length * mx := by
      intro ls
      induction ls with
      | nil => simp
      | cons l ls ih =>
        intro hl
        rw [List.flatten_cons, List.length_append, ih (fun x hx => hl x (by simp [hx])), hl l (by simp)]
        simp; ring
    rw [this _ hpadlen]; simp
  -- after k iterations
  have key : ∀ k, k ≤ msgs.length → ∃ d, (List.range k).foldlM (fun d irank =>
        assignSlice d (counts.take irank).sum (counts.take (irank + 1)).sum
          (pslice d (irank * mx) (irank * mx + counts.getD irank 0))) (recvData zero mx msgs) = some d ∧
      d.length = msgs.length * mx ∧ d.take (counts.take k).sum = (msgs.take k).flatten ∧
      d.drop (k * mx) = (recvData zero mx msgs).drop (k * mx) := by
    intro k
    induction k with
    | zero => intro _; exact ⟨_, rfl, hdl, by simp, rfl⟩
    | succ k ih =>
      intro hk
      obtain ⟨d, e, hl, ht, hd⟩ := ih (by omega)
      have hkc : counts.getD k 0 = (msgs[k]'(by omega)).length := by
        simp [hcounts, show k < msgs.length by omega]
      have hsumk := sum_take_le counts mx hcle k
      have hckmx : counts.getD k 0 ≤ mx := by rw [hkc]; exact h _ (List.getElem_mem _)
      have hkk : (k + 1) * mx ≤ msgs.length * mx := Nat.mul_le_mul_right _ hk
      have hk1 : (k + 1) * mx = k * mx + mx := by ring
      have hsrc : pslice d (k * mx) (k * mx + counts.getD k 0) = msgs[k]'(by omega) := by
        unfold pslice
        rw [hd, Nat.add_sub_cancel_left]
        unfold recvData
        rw [flatten_const_drop _ mx hpadlen k, ← List.map_drop, List.drop_eq_getElem_cons (by omega), List.map_cons,
          List.flatten_cons, hkc, padded, List.append_assoc, List.take_left]
      have hs := sum_take_succ counts k
      rw [List.range_succ, List.foldlM_append, e]
      simp only [Option.bind_eq_bind, Option.bind_some, List.foldlM_cons, List.foldlM_nil]
      rw [hs, assignSlice_exact _ _ _ _ (by omega) (by rw [hsrc, hkc]), hsrc]
      refine ⟨_, rfl, ?_, ?_, ?_⟩
      · simp only [List.length_append, List.length_take, List.length_drop, ← hkc]
        omega
      · have hmin : min (counts.take k).sum d.length = (counts.take k).sum := by omega
        rw [List.take_append_of_le_length (by rw [List.length_append, List.length_take, ← hkc]; omega),
          List.take_of_length_le (by rw [List.length_append, List.length_take, ← hkc]; omega), ht,
          List.take_succ_eq_append_getElem (by omega : k < msgs.length), List.flatten_append]
        simp
      · rw [List.drop_append, List.drop_of_length_le (by
          rw [List.length_append, List.length_take, ← hkc]; omega)]
        simp only [List.nil_append, List.drop_drop, List.length_append, List.length_take, ← hkc]
        have e2 : (counts.take k).sum + counts.getD k 0 + ((k + 1) * mx - (min (counts.take k).sum d.length + counts.getD k 0)) = k * mx + mx := by omega
        rw [e2, ← List.drop_drop, hd, List.drop_drop, ← hk1]
  obtain ⟨d, e, hl, ht, _⟩ := key msgs.length le_rfl
  refine ⟨d, ?_, hl, ?_⟩
  · unfold compact
    rw [show counts.length = msgs.length by simp [hcounts]]
    exact e
  · have : counts.take msgs.length = counts := List.take_of_length_le (by simp [hcounts])
    rw [this] at ht
    rw [ht, List.take_length]

/-- **C31.** From the (zero-padded) parts of one mode sent by all ranks, the writer obtains exactly the
    parts of rank 0, 1, … one after the other – for all local sizes, including different and zero ones. -/
theorem disk2_file_content {α} (zero : α) (msgs : List (List α)) :
    fileContent zero msgs = some msgs.flatten := by
  have hmax : ∀ m ∈ msgs, m.length ≤ (msgs.map List.length).foldl max 0 := by
    have : ∀ (l : List Nat) (a : Nat), a ≤ l.foldl max a ∧ ∀ c ∈ l, c ≤ l.foldl max a := by
      intro l
      induction l with
      | nil => intro a; simp
      | cons x xs ih =>
        intro a
        rw [List.foldl_cons]
        have h1 := ih (max a x)
        refine ⟨le_trans (le_max_left _ _) h1.1, ?_⟩
        intro c hc
        rcases List.mem_cons.1 hc with rfl | hc
        · exact le_trans (le_max_right _ _) h1.1
        · exact h1.2 c hc
    intro m hm
    exact (this (msgs.map List.length) 0).2 _ (List.mem_map_of_mem hm)
  obtain ⟨d, e, _, ht⟩ := compact_spec zero msgs _ hmax
  unfold fileContent
  simp only [e, Option.map_some, ht]

theorem writerItems_get (P total d p k : Nat) (hk : k < p) (ht : k * P + d < total) :
    (writerItems P total d p)[k]? = some (k * P + d) := by
  have h1 : writerItems P total d (k + 1) = (List.range (k + 1)).map fun q => q * P + d := by
    unfold writerItems
    rw [List.map_eq_flatMap]
    apply List.flatMap_congr
    intro q hq
    have hq' : q ≤ k := by have := List.mem_range.1 hq; omega
    have : q * P ≤ k * P := Nat.mul_le_mul_right _ hq'
    rw [if_pos (by omega)]
  have h2 : writerItems P total d (k + 1) <+: writerItems P total d p := by
    unfold writerItems
    obtain ⟨j, rfl⟩ : ∃ j, p = k + 1 + j := ⟨p - (k + 1), by omega⟩
    rw [List.range_add (n := k + 1), List.flatMap_append]
    exact List.prefix_append _ _
  obtain ⟨t, ht'⟩ := h2
  rw [← ht', h1, List.getElem?_append_left (by simp), List.getElem?_map, List.getElem?_range (by omega)]
  rfl

/-- **C31**, end to end.  `part s i` is what rank `s` holds of file number `i = f*n_modes_save + m`.  Some rank
    `d` saves `(f, m)`; its `k`-th receive from every rank `s` is the one posted for that file, is matched with
    the `k`-th message of `s` to `d`, and the flat content it writes is the concatenation over all ranks of the
    parts of that file. -/
theorem disk2_file_end_to_end {α} (zero : α) (part : Nat → Nat → List α) (P nf ns : Nat) (hP : 0 < P)
    (f m : Nat) (hf : f < nf) (hm : m < ns) :
    ∃ d k : Nat, d < P ∧ (f, m) ∈ saves (prog P nf ns d) ∧
      (∀ s, s < P → (recvFrom s (prog P nf ns d))[k]? = some (f * ns + m) ∧
        (sentTo d (prog P nf ns s))[k]? = some (f * ns + m)) ∧
      fileContent zero ((List.range P).map fun s => part s (((sentTo d (prog P nf ns s))[k]?).getD 0)) =
        some ((List.range P).flatMap fun s => part s (f * ns + m)) := by
  have hlt : f * ns + m < nf * ns := by
    have : (f + 1) * ns ≤ nf * ns := Nat.mul_le_mul_right _ (by omega)
    have : (f + 1) * ns = f * ns + ns := by ring
    omega
  have hdm : (f * ns + m) / P * P + (f * ns + m) % P = f * ns + m := by
    have := Nat.div_add_mod (f * ns + m) P
    rw [Nat.mul_comm] at this; omega
  have hd : (f * ns + m) % P < P := Nat.mod_lt _ hP
  have hkp : (f * ns + m) / P < nPasses P (nf * ns) := by
    rw [lt_nPasses P _ _ hP]; omega
  have hget := writerItems_get P (nf * ns) ((f * ns + m) % P) _ _ hkp (by omega)
  rw [hdm] at hget
  have hsent : ∀ s, (sentTo ((f * ns + m) % P) (prog P nf ns s))[(f * ns + m) / P]? = some (f * ns + m) := by
    intro s
    rw [prog_eq, before_sentTo P nf ns s _ _ hd, hget]
  refine ⟨(f * ns + m) % P, (f * ns + m) / P, hd, ?_, ?_, ?_⟩
  · have hns : 0 < ns := by omega
    rw [prog_saves P nf ns _ hd, List.mem_map]
    refine ⟨f * ns + m, List.mem_of_getElem? hget, ?_⟩
    have h1 : (f * ns + m) / ns = f := by
      rw [Nat.add_comm, Nat.add_mul_div_right _ _ hns, Nat.div_eq_of_lt hm, Nat.zero_add]
    have h2 : (f * ns + m) % ns = m := by
      rw [Nat.add_comm, Nat.add_mul_mod_self_right, Nat.mod_eq_of_lt hm]
    rw [h1, h2]
  · intro s hs
    refine ⟨?_, hsent s⟩
    rw [prog_eq, before_recvFrom P nf ns _ s _ hd hs, hget]
  · rw [disk2_file_content, Option.some.injEq]
    simp only [hsent, Option.getD_some]
    rw [List.flatMap]

example : fileContent 0 [[1, 2], [3], [], [4, 5]] = some [1, 2, 3, 4, 5] := by decide

end Verif.Props
