import Verif.Model.Workflow
import Verif.Props.Spmd
/-
  C95: in every parallel session file accesses of different ranks are ordered by barriers, and the session never
  deadlocks.
-/
namespace Verif.Props
open Verif Verif.Spmd Verif.Flow

/-! ### Runs of actions -/

section Runs
variable {F : Type}

theorem nColl_zero (l : List (Act F)) : nColl l 0 = 0 := by simp [nColl, collsOf]

theorem nColl_succ (l : List (Act F)) (i : Nat) (a : Act F) (h : l[i]? = some a) :
    nColl l (i + 1) = nColl l i + (match a with | .coll _ => 1 | _ => 0) := by
  have hi := (List.getElem?_eq_some_iff.1 h).1
  have e : l.take (i + 1) = l.take i ++ [a] := by
    rw [List.take_add_one, h]; rfl
  rw [nColl, e, collsOf, List.filterMap_append, List.length_append, nColl, collsOf]
  cases a <;> rfl

theorem nColl_mono (l : List (Act F)) {i j : Nat} (h : i ≤ j) : nColl l i ≤ nColl l j := by
  rw [nColl, nColl, collsOf, collsOf]
  exact ((List.take_prefix_take_left h).sublist.filterMap _).length_le

theorem nColl_lt (l : List (Act F)) {i j : Nat} (h : i < j) (c : Coll) (hc : l[i]? = some (.coll c)) :
    nColl l i < nColl l j := by
  have h1 := nColl_succ l i _ hc
  have h2 := nColl_mono l (Nat.succ_le_of_lt h)
  simp only at h1
  rw [Nat.succ_eq_add_one] at h2
  omega

theorem collsOf_getElem (l : List (Act F)) (i : Nat) (c : Coll) (h : l[i]? = some (.coll c)) :
    (collsOf l)[nColl l i]? = some c := by
  have hi := (List.getElem?_eq_some_iff.1 h).1
  have e : l = l.take i ++ l.drop i := (List.take_append_drop i l).symm
  have e2 : l.drop i = .coll c :: l.drop (i + 1) := by
    rw [List.drop_eq_getElem_cons hi]
    congr 1
    exact (List.getElem?_eq_some_iff.1 h).2
  have e3 : collsOf l = collsOf (l.take i) ++ c :: collsOf (l.drop (i + 1)) := by
    conv_lhs => rw [e, e2]
    simp only [collsOf, List.filterMap_append, List.filterMap_cons, Act.coll?]
  rw [e3, nColl]
  simp

theorem nColl_le_length (l : List (Act F)) (i : Nat) : nColl l i ≤ (collsOf l).length := by
  rw [nColl, collsOf, collsOf]
  exact ((List.take_sublist i l).filterMap _).length_le

/-- the next action of a rank that has not completed all its collective calls exists -/
theorem nColl_lt_pos (l : List (Act F)) (i : Nat) (h : nColl l i < (collsOf l).length) : i < l.length := by
  by_contra hge
  rw [nColl, List.take_of_length_le (by omega)] at h
  omega

theorem areach_le {L : Lib} {p : Nat} {acts : Nat → List (Act F)} {n : Nat} {s : Nat → Nat}
    (h : AReach L p acts n s) (r : Nat) : s r ≤ (acts r).length := by
  induction h with
  | init => exact Nat.zero_le _
  | step _ hs ih =>
    obtain ⟨q, a, _, ha, _, rfl⟩ := hs
    have := (List.getElem?_eq_some_iff.1 ha).1
    by_cases h : r = q
    · subst h; simp only [↓reduceIte]; omega
    · simp only [h, ↓reduceIte]; exact ih

theorem areach_sum {L : Lib} {p : Nat} {acts : Nat → List (Act F)} {n : Nat} {s : Nat → Nat}
    (h : AReach L p acts n s) : ∑ r ∈ Finset.range p, s r = n := by
  induction h with
  | init => simp
  | step _ hs ih =>
    rename_i n s s' _
    obtain ⟨q, a, hq, _, _, rfl⟩ := hs
    have hm : q ∈ Finset.range p := Finset.mem_range.2 hq
    rw [← ih, ← Finset.add_sum_erase _ _ hm, ← Finset.add_sum_erase _ s hm]
    have : ∑ x ∈ (Finset.range p).erase q, (if x = q then s q + 1 else s x) = ∑ x ∈ (Finset.range p).erase q, s x := by
      apply Finset.sum_congr rfl
      intro x hx
      rw [if_neg (Finset.ne_of_mem_erase hx)]
    simp only [↓reduceIte, this]
    omega

/-- **C95 (progress, any program).** Ranks that make the same collective calls, with any file accesses between them,
    never deadlock. -/
theorem acts_no_deadlock (L : Lib) (p : Nat) (acts : Nat → List (Act F)) (C : List Coll)
    (h : ∀ r < p, collsOf (acts r) = C) (n : Nat) (s : Nat → Nat) (hs : AReach L p acts n s) :
    n ≤ ∑ r ∈ Finset.range p, (acts r).length ∧
    ((∀ r < p, s r = (acts r).length) ∨ ∃ s', AStep L p acts s s') := by
  constructor
  · rw [← areach_sum hs]
    exact Finset.sum_le_sum fun r _ => areach_le hs r
  · by_cases hall : ∀ r < p, s r = (acts r).length
    · exact Or.inl hall
    · right
      push Not at hall
      obtain ⟨r0, hr0, hne⟩ := hall
      obtain ⟨r, hr, hmin⟩ := Finset.exists_min_image
        ((Finset.range p).filter fun r => s r ≠ (acts r).length) (fun r => nColl (acts r) (s r))
        ⟨r0, by simp [hr0, hne]⟩
      simp only [Finset.mem_filter, Finset.mem_range] at hr hmin
      obtain ⟨hr, hne⟩ := hr
      have hlt : s r < (acts r).length := lt_of_le_of_ne (areach_le hs r) hne
      have hget : (acts r)[s r]? = some (acts r)[s r] := List.getElem?_eq_getElem hlt
      -- a rank that is not at a collective call can go on
      by_cases hloc : ∃ q < p, ∃ a, (acts q)[s q]? = some a ∧ ∀ c, a ≠ .coll c
      · obtain ⟨q, hq, a, ha, hc⟩ := hloc
        exact ⟨_, q, a, hq, ha, fun c e => absurd e (hc c), rfl⟩
      · push Not at hloc
        refine ⟨_, r, _, hr, hget, ?_, rfl⟩
        intro c hc q hq _
        have hcol := collsOf_getElem (acts r) (s r) c (by rw [hget, hc])
        rw [h r hr] at hcol
        refine ⟨by rw [h q hq]; exact hcol, ?_⟩
        by_cases hend : s q = (acts q).length
        · left
          have : nColl (acts q) (s q) = (collsOf (acts q)).length := by
            rw [nColl, hend, List.take_length]
          rw [this, h q hq]
          exact (List.getElem?_eq_some_iff.1 hcol).1
        · have hle := hmin q ⟨hq, hend⟩
          rcases Nat.lt_or_eq_of_le hle with h1 | h1
          · exact Or.inl h1
          · right
            refine ⟨h1.symm, ?_⟩
            have hltq : s q < (acts q).length := lt_of_le_of_ne (areach_le hs q) hend
            have hgq : (acts q)[s q]? = some (acts q)[s q] := List.getElem?_eq_getElem hltq
            obtain ⟨c', hc'⟩ := hloc q hq _ hgq
            have h2 := collsOf_getElem (acts q) (s q) c' (by rw [hgq, hc'])
            rw [h q hq, ← h1, hcol] at h2
            simp only [Option.some.injEq] at h2
            rw [hgq, hc', h2]

/-- rank with actions `l` has come to its collective call number `k` -/
def Arrived (l : List (Act F)) (n k : Nat) : Prop := k < nColl l n ∨ (nColl l n = k ∧ ∃ c, l[n]? = some (.coll c))

theorem arrived_step (l : List (Act F)) (n k : Nat) (h : Arrived l n k) : Arrived l (n + 1) k := by
  rcases h with h | ⟨h, c, hc⟩
  · exact Or.inl (lt_of_lt_of_le h (nColl_mono l (Nat.le_succ n)))
  · exact Or.inl (h ▸ nColl_lt l (Nat.lt_succ_self n) c hc)

/-- a rank past its barrier number `k`: every rank has come to its call number `k` -/
theorem barrier_passed (L : Lib) (p : Nat) (acts : Nat → List (Act F)) (n : Nat) (s : Nat → Nat)
    (hs : AReach L p acts n s) (q k : Nat) (hb : (collsOf (acts q))[k]? = some .barrier)
    (hk : k < nColl (acts q) (s q)) (r : Nat) (hr : r < p) : Arrived (acts r) (s r) k := by
  induction hs with
  | init => simp [nColl_zero] at hk
  | step hprev hst ih =>
    rename_i n s s'
    obtain ⟨x, a, hx, ha, hw, rfl⟩ := hst
    have mono : Arrived (acts r) (s r) k → Arrived (acts r) (if r = x then s x + 1 else s r) k := by
      intro harr
      by_cases e : r = x
      · subst e; simp only [↓reduceIte]; exact arrived_step _ _ _ harr
      · simpa only [e, ↓reduceIte] using harr
    by_cases e : q = x
    · subst e
      simp only [↓reduceIte] at hk
      by_cases hlt : k < nColl (acts q) (s q)
      · exact mono (ih hlt)
      · -- the step is the call number `k`
        have h1 := nColl_succ (acts q) (s q) a ha
        cases a with
        | coll c =>
          simp only at h1
          have e : nColl (acts q) (s q) = k := by omega
          have hc := collsOf_getElem (acts q) (s q) c ha
          rw [e, hb] at hc
          simp only [Option.some.injEq] at hc
          subst hc
          have := (hw _ rfl r hr (L.least _ _ _ trivial)).2
          rw [e] at this
          apply mono
          rcases this with h2 | ⟨h2, h3⟩
          · exact Or.inl h2
          · exact Or.inr ⟨h2, _, h3⟩
        | rd x => simp only at h1; omega
        | wr x => simp only at h1; omega
        | same x => simp only at h1; omega
    · simp only [e, ↓reduceIte] at hk
      exact mono (ih hk)

/-- **C95 (barriers, any program).** Every rank does `A`, then a barrier, then `B`, with equally many collective calls in
    `A` on all ranks.  When some rank has begun its `B`, every rank has completed all of its `A`. -/
theorem barrier_separates (L : Lib) (p : Nat) (acts : Nat → List (Act F)) (A B : Nat → List (Act F))
    (hacts : ∀ r < p, acts r = A r ++ .coll .barrier :: B r) (k : Nat) (hA : ∀ r < p, (collsOf (A r)).length = k)
    (n : Nat) (s : Nat → Nat) (hs : AReach L p acts n s) (q : Nat) (hq : q < p) (hpast : (A q).length < s q)
    (r : Nat) (hr : r < p) : (A r).length ≤ s r := by
  have hn : ∀ r < p, nColl (acts r) (A r).length = k := by
    intro r hr
    rw [nColl, hacts r hr, List.take_left', hA r hr]
    rfl
  have hbar : (acts q)[(A q).length]? = some (.coll .barrier) := by
    rw [hacts q hq]; simp
  have hk : k < nColl (acts q) (s q) := by
    rw [← hn q hq]
    exact nColl_lt _ hpast _ hbar
  have harr := barrier_passed L p acts n s hs q k (by
    have := collsOf_getElem (acts q) _ _ hbar
    rwa [hn q hq] at this) hk r hr
  by_contra hlt
  push Not at hlt
  rcases harr with h | ⟨h, c, hc⟩
  · have := nColl_mono (acts r) (le_of_lt hlt)
    rw [hn r hr] at this
    omega
  · have := nColl_lt (acts r) hlt c hc
    rw [hn r hr] at this
    omega

end Runs

/-! ### Phases -/

/-- A phase is fine if all ranks make the same collective calls in it, and every file touched in it is either only read,
    or written in parts each of which has one owner, or written by everybody with the same content. -/
structure PartOk (ph : Part) : Prop where
  uniform : ∃ C, ∀ r, collsOf (ph r) = C
  access : ∃ (kind : File → Fin 3) (owner : Res File → Nat), ∀ r, ∀ a ∈ ph r,
    match a with
    | .coll _ => True
    | .rd x => kind x.1 = 0
    | .wr x => kind x.1 = 1 ∧ owner x = r
    | .same x => kind x.1 = 2

theorem phase_no_conflict (ph : Part) (h : PartOk ph) (r q : Nat) (hne : r ≠ q) (a b : A) (ha : a ∈ ph r)
    (hb : b ∈ ph q) : ¬ Conflict a b := by
  obtain ⟨kind, owner, hk⟩ := h.access
  have h1 := hk r a ha
  have h2 := hk q b hb
  intro hc
  cases a <;> cases b <;> simp only [Conflict] at hc <;> subst hc <;> simp only at h1 h2
  · rw [h1] at h2; exact absurd h2.1 (by decide)
  · rw [h1] at h2; exact absurd h2 (by decide)
  · rw [h1.1] at h2; exact absurd h2 (by decide)
  · exact hne (h1.2.symm.trans h2.2)
  · rw [h1.1] at h2; exact absurd h2 (by decide)
  · rw [h1] at h2; exact absurd h2 (by decide)
  · rw [h1] at h2; exact absurd h2.1 (by decide)

theorem actsOf_append (a b : List Part) (r : Nat) : actsOf (a ++ b) r = actsOf a r ++ actsOf b r := by
  simp [actsOf]

theorem actsOf_cons (ph : Part) (b : List Part) (r : Nat) :
    actsOf (ph :: b) r = ph r ++ .coll .barrier :: actsOf b r := by
  simp [actsOf]

/-- a file access lies in one of the phases -/
theorem act_in_phase (phs : List Part) (r i : Nat) (a : A) (h : (actsOf phs r)[i]? = some a) (ha : ∀ c, a ≠ .coll c) :
    ∃ pre ph post i', phs = pre ++ ph :: post ∧ i = (actsOf pre r).length + i' ∧ (ph r)[i']? = some a := by
  induction phs generalizing i with
  | nil => simp [actsOf] at h
  | cons ph phs ih =>
    rw [actsOf_cons] at h
    by_cases h1 : i < (ph r).length
    · rw [List.getElem?_append_left h1] at h
      exact ⟨[], ph, phs, i, rfl, by simp [actsOf], h⟩
    · rw [List.getElem?_append_right (by omega)] at h
      rcases Nat.eq_zero_or_pos (i - (ph r).length) with h2 | h2
      · rw [h2] at h
        simp only [List.getElem?_cons_zero, Option.some.injEq] at h
        exact absurd h.symm (ha _)
      · obtain ⟨j, hj⟩ : ∃ j, i - (ph r).length = j + 1 := ⟨i - (ph r).length - 1, by omega⟩
        rw [hj, List.getElem?_cons_succ] at h
        obtain ⟨pre, ph', post, i', rfl, e, h3⟩ := ih j h
        refine ⟨ph :: pre, ph', post, i', rfl, ?_, h3⟩
        rw [actsOf_cons, List.length_append, List.length_cons]
        omega

theorem collsOf_uniform (pre : List Part) (ph : Part) (h : ∀ x ∈ pre ++ [ph], PartOk x) :
    ∃ k, ∀ r, (collsOf (actsOf pre r ++ ph r)).length = k := by
  obtain ⟨C, hC⟩ := (h ph (by simp)).uniform
  have : ∃ k, ∀ r, (collsOf (actsOf pre r)).length = k := by
    clear hC
    induction pre with
    | nil => exact ⟨0, fun r => by simp [actsOf, collsOf]⟩
    | cons x pre ih =>
      obtain ⟨k, hk⟩ := ih fun y hy => h y (by simp only [List.cons_append, List.mem_cons]; exact Or.inr hy)
      obtain ⟨D, hD⟩ := (h x (by simp)).uniform
      refine ⟨D.length + (1 + k), fun r => ?_⟩
      have h1 := hk r
      have h2 := hD r
      rw [actsOf_cons]
      simp only [collsOf, List.filterMap_append, List.filterMap_cons, Act.coll?, List.length_append, List.length_cons] at *
      rw [h2]; omega
  obtain ⟨k, hk⟩ := this
  refine ⟨k + C.length, fun r => ?_⟩
  have h1 := hk r
  have h2 := hC r
  simp only [collsOf, List.filterMap_append, List.length_append] at *
  rw [h1, h2]

/-- an access in an earlier phase is over before any rank comes to a later phase -/
theorem phases_ordered (L : Lib) (p : Nat) (pre mid post : List Part) (ph : Part)
    (hok : ∀ x ∈ pre ++ [ph], PartOk x) (n : Nat) (s : Nat → Nat)
    (hs : AReach L p (actsOf (pre ++ ph :: (mid ++ post))) n s) (r q : Nat) (hr : r < p) (hq : q < p)
    (i' j : Nat) (hi : i' < (ph r).length) (hj : (actsOf (pre ++ ph :: mid) q).length ≤ j) (hjs : j ≤ s q) :
    (actsOf pre r).length + i' < s r := by
  obtain ⟨k, hk⟩ := collsOf_uniform pre ph hok
  have := barrier_separates L p _ (fun x => actsOf pre x ++ ph x) (fun x => actsOf (mid ++ post) x)
    (fun x _ => by rw [actsOf_append, actsOf_cons, List.append_assoc]) k (fun x _ => hk x) n s hs q hq (by
      rw [actsOf_append, actsOf_cons] at hj
      simp only [List.length_append, List.length_cons] at hj ⊢
      omega) r hr
  simp only [List.length_append] at this
  omega

/-- **C95 (no race, any phases).** In a program made of fine phases, two conflicting accesses of different ranks are
    ordered: one of them is over, in every schedule and with every MPI library, before the other rank comes to the other. -/
theorem phases_no_race (L : Lib) (p : Nat) (phs : List Part) (hok : ∀ x ∈ phs, PartOk x) (r q : Nat) (hr : r < p)
    (hq : q < p) (hne : r ≠ q) (i j : Nat) (a b : A) (ha : (actsOf phs r)[i]? = some a)
    (hb : (actsOf phs q)[j]? = some b) (hc : Conflict a b) :
    (∀ n s, AReach L p (actsOf phs) n s → j ≤ s q → i < s r) ∨
    (∀ n s, AReach L p (actsOf phs) n s → i ≤ s r → j < s q) := by
  obtain ⟨pre, ph, post, i', e1, ei, hi⟩ := act_in_phase phs r i a ha (by
    rintro c rfl; simp [Conflict] at hc)
  obtain ⟨pre', ph', post', j', e2, ej, hj⟩ := act_in_phase phs q j b hb (by
    rintro c rfl; cases a <;> simp [Conflict] at hc)
  have hi' := (List.getElem?_eq_some_iff.1 hi).1
  have hj' := (List.getElem?_eq_some_iff.1 hj).1
  have e : pre ++ ph :: post = pre' ++ ph' :: post' := e1.symm.trans e2
  have hlt : ∀ {u v : List Part} {x y : Part} {w z : List Part}, u ++ x :: w = v ++ y :: z → u.length < v.length →
      ∃ mid, v = u ++ x :: mid ∧ w = mid ++ y :: z := by
    intro u v x y w z h hl
    rcases List.append_eq_append_iff.1 h with ⟨c, h1, h2⟩ | ⟨c, h1, h2⟩
    · cases c with
      | nil => simp at h1; subst h1; omega
      | cons d c =>
        simp only [List.cons_append, List.cons.injEq] at h2
        exact ⟨c, by rw [h1, ← h2.1], h2.2⟩
    · rw [h1, List.length_append] at hl; omega
  rcases Nat.lt_trichotomy pre.length pre'.length with hl | hl | hl
  · left
    obtain ⟨mid, h1, h2⟩ := hlt e hl
    intro n s hs hjs
    rw [ei]
    have e3 : phs = pre ++ ph :: (mid ++ ph' :: post') := by rw [e2, h1]; simp
    refine phases_ordered L p pre mid (ph' :: post') ph (fun x hx => hok x ?_) n s (by rw [← e3]; exact hs) r q hr hq i' j
      hi' (by rw [← h1]; omega) hjs
    rw [e1]; simp only [List.mem_append, List.mem_cons, List.not_mem_nil, or_false] at hx ⊢; tauto
  · exfalso
    have h3 := List.append_inj e hl
    have h4 : ph = ph' := (List.cons.inj h3.2).1
    subst h4
    exact phase_no_conflict ph (hok ph (by rw [e1]; simp)) r q hne a b (List.mem_of_getElem? hi) (List.mem_of_getElem? hj) hc
  · right
    obtain ⟨mid, h1, h2⟩ := hlt e.symm hl
    intro n s hs his
    rw [ej]
    have e3 : phs = pre' ++ ph' :: (mid ++ ph :: post) := by rw [e1, h1]; simp
    refine phases_ordered L p pre' mid (ph :: post) ph' (fun x hx => hok x ?_) n s (by rw [← e3]; exact hs) q r hq hr j' i
      hj' (by rw [← h1]; omega) his
    rw [e2]; simp only [List.mem_append, List.mem_cons, List.not_mem_nil, or_false] at hx ⊢; tauto

/-! ### The phases of the operations are fine -/

/-- an access allowed by a classification of the files -/
def okAct (kind : File → Fin 3) (owner : Res File → Nat) (r : Nat) (a : A) : Prop :=
  match a with
  | .coll _ => True
  | .rd x => kind x.1 = 0
  | .wr x => kind x.1 = 1 ∧ owner x = r
  | .same x => kind x.1 = 2

def Fine (kind : File → Fin 3) (owner : Res File → Nat) (r : Nat) (l : List A) : Prop := ∀ a ∈ l, okAct kind owner r a

section
variable {kind : File → Fin 3} {owner : Res File → Nat} {r : Nat}

theorem fine_nil : Fine kind owner r [] := by simp [Fine]
theorem fine_append {l m : List A} (h1 : Fine kind owner r l) (h2 : Fine kind owner r m) : Fine kind owner r (l ++ m) := by
  intro a ha
  rcases List.mem_append.1 ha with h | h
  · exact h1 a h
  · exact h2 a h
theorem fine_cons {a : A} {m : List A} (h1 : okAct kind owner r a) (h2 : Fine kind owner r m) : Fine kind owner r (a :: m) := by
  intro b hb
  rcases List.mem_cons.1 hb with h | h
  · rw [h]; exact h1
  · exact h2 b h
theorem fine_flatMap {α : Type} {l : List α} {f : α → List A} (h : ∀ x ∈ l, Fine kind owner r (f x)) :
    Fine kind owner r (l.flatMap f) := by
  intro a ha
  obtain ⟨x, hx, h1⟩ := List.mem_flatMap.1 ha
  exact h x hx a h1
theorem fine_calls (l : List Coll) : Fine kind owner r (calls l) := by
  intro a ha
  obtain ⟨c, _, rfl⟩ := List.mem_map.1 ha
  trivial
theorem fine_rep (n : Nat) (c : Coll) : Fine kind owner r (rep n c) := by
  intro a ha
  rw [List.eq_of_mem_replicate ha]
  trivial
theorem fine_readAll {p : Nat} {f : File} (h : kind f = 0) : Fine kind owner r (readAll p f) := by
  refine fine_cons h ?_
  intro a ha
  obtain ⟨q, _, rfl⟩ := List.mem_map.1 ha
  exact h
theorem fine_read1 {f : File} (h : kind f = 0) : Fine kind owner r (read1 f) := fine_cons h fine_nil
theorem fine_onRoot {l : List A} (h : r = 0 → Fine kind owner r l) : Fine kind owner r (onRoot r l) := by
  rw [onRoot]
  split
  · exact h ‹_›
  · exact fine_nil
theorem fine_npySave {d f : File} (hd : kind d = 0) (hf : kind f = 1) (h0 : owner (f, none) = 0)
    (hr : owner (f, some r) = r) : Fine kind owner r (npySave d f r) := by
  refine fine_append (fine_append ?_ ?_) ?_
  · intro a ha
    simp only [List.mem_cons, List.not_mem_nil, or_false] at ha
    rcases ha with rfl | rfl | rfl | rfl | rfl <;> trivial
  · split
    · rename_i e
      exact fine_cons ⟨hf, by rw [h0, e]⟩ fine_nil
    · exact fine_nil
  · intro a ha
    simp only [List.mem_cons, List.not_mem_nil, or_false] at ha
    rcases ha with rfl | rfl | rfl | rfl | rfl | rfl <;> trivial

end

theorem colls_append (l m : List A) : collsOf (l ++ m) = collsOf l ++ collsOf m := by simp [collsOf]
theorem colls_nil : collsOf ([] : List A) = [] := rfl
theorem colls_cons (a : A) (m : List A) : collsOf (a :: m) = a.coll?.toList ++ collsOf m := by
  cases a <;> rfl
theorem colls_calls (l : List Coll) : collsOf (calls l) = l := by
  simp [collsOf, calls, List.filterMap_map, Function.comp_def, Act.coll?]
theorem colls_rep (n : Nat) (c : Coll) : collsOf (rep n c) = List.replicate n c := by
  simp [collsOf, rep, List.filterMap_replicate, Act.coll?]
theorem colls_readAll (p : Nat) (f : File) : collsOf (readAll p f) = [] := by
  simp [collsOf, readAll, Act.coll?]
theorem colls_read1 (f : File) : collsOf (read1 f) = [] := rfl
theorem colls_npySave (d f : File) (r : Nat) : collsOf (npySave d f r) = npySaveCalls := by
  rw [npySave]; split <;> rfl
theorem colls_onRoot (r : Nat) (l : List A) (h : collsOf l = []) : collsOf (onRoot r l) = [] := by
  rw [onRoot]; split
  · exact h
  · rfl
theorem colls_flatMap {α : Type} (l : List α) (f : α → List A) :
    collsOf (l.flatMap f) = l.flatMap fun x => collsOf (f x) := by
  simp [collsOf, List.filterMap_flatMap]

/-- classification where folders are made and nothing is read from them -/
def kMk : File → Fin 3
  | .folder _ | .modesFolder _ | .blocksFolder _ | .coeffsFolder _ _ => 1
  | _ => 0

/-- classification where an output folder is made -/
def kOut : File → Fin 3
  | .outFolder _ _ _ => 1
  | _ => 0

/-- classification where files are written into existing folders -/
def kSave : File → Fin 3
  | .folder _ | .modesFolder _ | .blocksFolder _ | .coeffsFolder _ _ | .outFolder _ _ _ => 0
  | .paramsC _ _ => 2
  | _ => 1

/-- the owner of a part: the rank of that number, rank 0 for the header, and the writing rank of a mode file -/
def ownerOf (p nSave : Nat) : Res File → Nat
  | (.mode2 _ f m, _) => (f * nSave + m) % p
  | (_, none) => 0
  | (_, some q) => q

theorem partOk_mk (ph : Part) (C : List Coll) (h1 : ∀ r, collsOf (ph r) = C) (kind : File → Fin 3)
    (owner : Res File → Nat) (h2 : ∀ r, Fine kind owner r (ph r)) : PartOk ph :=
  ⟨⟨C, h1⟩, kind, owner, fun r a ha => h2 r a ha⟩

theorem fine_savePass (R : FitRun) (k r j : Nat) : Fine kSave (ownerOf R.p R.nSave) r (savePass R k r j) := by
  refine fine_cons trivial ?_
  split
  · rename_i h
    refine fine_cons rfl (fine_cons ⟨rfl, ?_⟩ fine_nil)
    have hpos : 0 < R.nSave := by
      rcases Nat.eq_zero_or_pos R.nSave with e | e
      · rw [e] at h; simp at h
      · exact e
    simp only [ownerOf]
    rw [Nat.div_add_mod', Nat.mul_add_mod', Nat.mod_eq_of_lt h.2]
  · exact fine_nil

theorem flatMap_const {α β : Type} (l : List α) (c : List β) :
    (l.flatMap fun _ => c) = (List.replicate l.length c).flatten := by
  induction l with
  | nil => rfl
  | cons x l ih => simp [List.replicate_succ, ih]

/-- the calls that save the modes -/
def outCalls (R : FitRun) : List Coll :=
  match R.output with
  | .none => []
  | .disk => (List.replicate R.nf npySaveCalls).flatten
  | .disk2 =>
    let total := R.nf * R.nSave
    [.allreduce, .allgather] ++
      (List.range ((total + R.p - 1) / R.p)).map fun k => .gather (min ((k + 1) * R.p) total - k * R.p)

theorem colls_saveModes (R : FitRun) (k r : Nat) : collsOf (saveModes R k r) = outCalls R := by
  rw [saveModes, outCalls]
  cases R.output
  · rfl
  · simp only [colls_flatMap, saveMode, colls_npySave]
    rw [flatMap_const, List.length_range]
  · have hpass : ∀ j, collsOf (savePass R k r j) = [.gather (min ((j + 1) * R.p) (R.nf * R.nSave) - j * R.p)] := by
      intro j
      rw [savePass, colls_cons]
      split <;> rfl
    simp only [colls_append, colls_flatMap, hpass]
    rw [← List.map_eq_flatMap]
    rfl

theorem fitPhases_ok (R : FitRun) (k : Nat) : ∀ ph ∈ fitPhases R k, PartOk ph := by
  intro ph hph
  simp only [fitPhases, List.mem_cons, List.not_mem_nil, or_false] at hph
  rcases hph with rfl | rfl | rfl | rfl | rfl | rfl
  · exact partOk_mk _ _ (fun r => colls_calls _) (fun _ => 0) (ownerOf R.p R.nSave) fun r => fine_calls _
  · refine partOk_mk _ (List.replicate (if R.normalizeWeights then R.nv else 0) .allreduce ++ List.replicate 3 .allreduce)
      (fun r => ?_) kMk (ownerOf R.p R.nSave) fun r => ?_
    · rw [colls_append, colls_append, colls_rep, colls_rep, colls_onRoot _ _ (by split <;> rfl), List.append_nil]
    · refine fine_append (fine_append (fine_rep _ _) (fine_onRoot ?_)) (fine_rep _ _)
      rintro rfl
      refine fine_append (fine_cons ⟨rfl, rfl⟩ (fine_cons ⟨rfl, rfl⟩ fine_nil)) ?_
      split
      · exact fine_cons ⟨rfl, rfl⟩ fine_nil
      · exact fine_nil
  · by_cases hb : R.blocksPresent
    · refine partOk_mk _ (List.replicate R.nf .barrier) (fun r => ?_) (fun _ => 0) (ownerOf R.p R.nSave) fun r => ?_
      · rw [if_pos hb, colls_append, colls_rep, colls_flatMap]
        simp [readBlock, colls_append, colls_read1, colls_readAll]
      · rw [if_pos hb]
        exact fine_append (fine_flatMap fun x _ => fine_append (fine_read1 rfl) (fine_readAll rfl)) (fine_rep _ _)
    · by_cases hs : R.savefft
      · refine partOk_mk _ ((pairs R.nb R.nf).flatMap fun _ => npySaveCalls) (fun r => ?_) kSave (ownerOf R.p R.nSave)
          fun r => ?_
        · rw [if_neg hb, if_pos hs, colls_flatMap]
          simp only [saveBlock, colls_npySave]
        · rw [if_neg hb, if_pos hs]
          exact fine_flatMap fun x _ => fine_npySave rfl rfl rfl rfl
      · refine partOk_mk _ [] (fun r => ?_) (fun _ => 0) (ownerOf R.p R.nSave) fun r => ?_
        · rw [if_neg hb, if_neg hs]; rfl
        · rw [if_neg hb, if_neg hs]; exact fine_nil
  · exact partOk_mk _ [] (fun r => rfl) (fun _ => 0) (ownerOf R.p R.nSave) fun r => fine_nil
  · refine ⟨?_, kSave, ownerOf R.p R.nSave, fun r => ?_⟩
    · refine ⟨[.allreduce] ++ outCalls R ++ npySaveCalls ++ npySaveCalls, fun r => ?_⟩
      simp only [colls_append, colls_npySave, colls_saveModes,
        colls_onRoot _ _ (rfl : collsOf ([.wr (.params k, some 0), .wr (.eigs k, some 0)] : List A) = []), List.append_nil]
      rfl
    · have hout : Fine kSave (ownerOf R.p R.nSave) r (saveModes R k r) := by
        rw [saveModes]
        cases R.output
        · exact fine_nil
        · exact fine_flatMap fun f _ => fine_npySave rfl rfl rfl rfl
        · exact fine_append (fine_cons trivial (fine_cons trivial fine_nil)) (fine_flatMap fun j _ => fine_savePass R k r j)
      have := fine_append (fine_append (fine_append (fine_append (fine_cons (a := .coll .allreduce) trivial fine_nil) hout)
        (fine_npySave (d := .folder k) (f := .weights k) rfl rfl rfl rfl))
        (fine_npySave (d := .folder k) (f := .mean k) rfl rfl rfl rfl))
        (fine_onRoot (l := [.wr (.params k, some 0), .wr (.eigs k, some 0)]) (by
          rintro rfl; exact fine_cons ⟨rfl, rfl⟩ (fine_cons ⟨rfl, rfl⟩ fine_nil)))
      exact this
  · exact partOk_mk _ [] (fun r => rfl) (fun _ => 0) (ownerOf R.p R.nSave) fun r => fine_nil

theorem streamPhases_ok (nv : Nat) (norm : Bool) (upds : List Bool) (nf k : Nat) :
    ∀ ph ∈ streamPhases nv norm upds nf k, PartOk ph := by
  intro ph hph
  simp only [streamPhases, List.mem_cons, List.not_mem_nil, or_false] at hph
  rcases hph with rfl | rfl | rfl | rfl
  · exact partOk_mk _ _ (fun r => colls_calls _) (fun _ => 0) (ownerOf 1 1) fun r => fine_calls _
  · refine partOk_mk _ (List.replicate (if norm then nv else 0) .allreduce ++ List.replicate 3 .allreduce)
      (fun r => ?_) kMk (ownerOf 1 1) fun r => ?_
    · rw [colls_append, colls_append, colls_rep, colls_rep, colls_onRoot _ _ rfl, List.append_nil]
    · refine fine_append (fine_append (fine_rep _ _) (fine_onRoot ?_)) (fine_rep _ _)
      rintro rfl
      exact fine_cons ⟨rfl, rfl⟩ (fine_cons ⟨rfl, rfl⟩ fine_nil)
  · refine partOk_mk _ (upds.flatMap (streamSnap nf) ++ ((List.range nf).flatMap fun _ => npySaveCalls) ++ npySaveCalls ++
      npySaveCalls) (fun r => ?_) kSave (ownerOf 1 1) fun r => ?_
    · simp only [colls_append, colls_npySave, colls_flatMap, saveMode, colls_calls,
          colls_onRoot _ _ (rfl : collsOf ([.wr (.params k, some 0), .wr (.eigs k, some 0)] : List A) = []), List.append_nil]
    · refine fine_append (fine_append (fine_append (fine_append (fine_calls _) (fine_flatMap fun f _ =>
        fine_npySave rfl rfl rfl rfl)) (fine_npySave rfl rfl rfl rfl)) (fine_npySave rfl rfl rfl rfl)) (fine_onRoot ?_)
      rintro rfl; exact fine_cons ⟨rfl, rfl⟩ (fine_cons ⟨rfl, rfl⟩ fine_nil)
  · exact partOk_mk _ [] (fun r => rfl) (fun _ => 0) (ownerOf 1 1) fun r => fine_nil

theorem fine_readModes {kind : File → Fin 3} {owner : Res File → Nat} {r : Nat} (p k nSave : Nat) (disk2 : Bool) (f : Nat)
    (h1 : ∀ m, kind (.mode2 k f m) = 0) (h2 : kind (.mode k f) = 0) : Fine kind owner r (readModes p k nSave disk2 f) := by
  refine fine_append ?_ (fine_cons trivial fine_nil)
  split
  · exact fine_flatMap fun m _ => fine_read1 (h1 m)
  · exact fine_readAll h2

theorem colls_readModes (p k nSave : Nat) (disk2 : Bool) (f : Nat) : collsOf (readModes p k nSave disk2 f) = [.barrier] := by
  rw [readModes, colls_append]
  cases disk2
  · simp only [Bool.false_eq_true, ↓reduceIte, colls_readAll]; rfl
  · simp only [↓reduceIte, colls_flatMap, colls_read1]; simp [collsOf, Act.coll?]

theorem fine_readResults {kind : File → Fin 3} {owner : Res File → Nat} {r : Nat} (p k : Nat)
    (h1 : kind (.eigs k) = 0) (h2 : kind (.weights k) = 0) (h3 : kind (.params k) = 0) :
    Fine kind owner r (readResults p k) :=
  fine_append (fine_append (fine_read1 h1) (fine_readAll h2)) (fine_read1 h3)

theorem colls_readResults (p k : Nat) : collsOf (readResults p k) = [] := by
  simp only [readResults, colls_append, colls_read1, colls_readAll, List.append_nil]

theorem coeffsPhases_ok (p k c nSave : Nat) (disk2 conv : Bool) (freqs : List Nat) :
    ∀ ph ∈ coeffsPhases p k c nSave disk2 conv freqs, PartOk ph := by
  intro ph hph
  simp only [coeffsPhases, List.mem_cons, List.not_mem_nil, or_false] at hph
  rcases hph with rfl | rfl | rfl | rfl | rfl
  · refine partOk_mk _ (List.replicate 2 .barrier ++ freqs.flatMap fun _ => [.barrier]) (fun r => ?_) kMk (ownerOf 1 1)
      fun r => ?_
    · simp only [colls_append, colls_readResults, colls_rep, colls_flatMap, colls_readModes,
        colls_onRoot _ _ (rfl : collsOf ([.wr (.coeffsFolder k c, some 0)] : List A) = []), List.append_nil, List.nil_append]
    · refine fine_append (fine_append (fine_append (fine_readResults p k rfl rfl rfl) (fine_rep _ _))
        (fine_flatMap fun f _ => fine_readModes p k nSave disk2 f (fun _ => rfl) rfl)) (fine_onRoot ?_)
      rintro rfl; exact fine_cons ⟨rfl, rfl⟩ fine_nil
  · cases conv
    · exact partOk_mk _ _ (fun r => colls_calls [.barrier, .allreduce, .barrier, .allreduce]) (fun _ => 0) (ownerOf 1 1)
        fun r => fine_calls _
    · exact partOk_mk _ [] (fun r => rfl) (fun _ => 0) (ownerOf 1 1) fun r => fine_nil
  · refine partOk_mk _ (npySaveCalls ++ npySaveCalls) (fun r => ?_) kSave (ownerOf 1 1) fun r => ?_
    · simp only [colls_append, colls_npySave]
    · exact fine_append (fine_npySave rfl rfl rfl rfl) (fine_npySave rfl rfl rfl rfl)
  · refine partOk_mk _ [] (fun r => colls_onRoot _ _ rfl) kSave (ownerOf 1 1) fun r => fine_onRoot ?_
    rintro rfl; exact fine_cons ⟨rfl, rfl⟩ fine_nil
  · exact partOk_mk _ [] (fun r => rfl) kSave (ownerOf 1 1) fun r => fine_cons rfl (fine_cons rfl fine_nil)

theorem reconPhases_ok (p k c : Nat) (o : Option Nat) (given : Bool) (name : Nat) :
    ∀ ph ∈ reconPhases p k c o given name, PartOk ph := by
  intro ph hph
  simp only [reconPhases, List.mem_cons, List.not_mem_nil, or_false] at hph
  rcases hph with rfl | rfl
  · refine partOk_mk _ (List.replicate 2 .barrier) (fun r => ?_) kOut (ownerOf 1 1) fun r => ?_
    · have h1 : collsOf (if given = true then ([] : List A) else read1 (.coeffs k c)) = [] := by split <;> rfl
      have h2 : collsOf (if o.isSome = true then onRoot r [.wr (.outFolder k c o, some 0)] else ([] : List A)) = [] := by
        split
        · exact colls_onRoot _ _ rfl
        · rfl
      simp only [colls_append, colls_read1, colls_readAll, colls_rep, h1, h2, List.append_nil, List.nil_append]
    · refine fine_append (fine_append (fine_append (fine_append (fine_append (fine_append (fine_read1 rfl)
        (fine_readAll rfl)) (fine_readAll rfl)) (fine_read1 rfl)) ?_) (fine_rep _ _)) ?_
      · split
        · exact fine_nil
        · exact fine_read1 rfl
      · split
        · refine fine_onRoot ?_
          rintro rfl; exact fine_cons ⟨rfl, rfl⟩ fine_nil
        · exact fine_nil
  · exact partOk_mk _ npySaveCalls (fun r => colls_npySave _ _ _) kSave (ownerOf 1 1)
      fun r => fine_npySave (by cases o <;> rfl) rfl rfl rfl

theorem orthoPhases_ok (p k nSave : Nat) (disk2 : Bool) (f : Nat) : ∀ ph ∈ orthoPhases p k nSave disk2 f, PartOk ph := by
  intro ph hph
  simp only [orthoPhases, List.mem_cons, List.not_mem_nil, or_false] at hph
  rcases hph with rfl | rfl
  · refine partOk_mk _ [.barrier, .barrier] (fun r => ?_) (fun _ => 0) (ownerOf 1 1) fun r => ?_
    · simp only [colls_append, colls_readResults, colls_rep, colls_readModes]; rfl
    · exact fine_append (fine_append (fine_readResults p k rfl rfl rfl) (fine_rep _ _))
        (fine_readModes p k nSave disk2 f (fun _ => rfl) rfl)
  · exact partOk_mk _ [.allreduce] (fun r => rfl) (fun _ => 0) (ownerOf 1 1) fun r => fine_cons trivial fine_nil

theorem podPhases_ok (n nv : Nat) (norm : Bool) (k : Nat) : ∀ ph ∈ podPhases n nv norm k, PartOk ph := by
  intro ph hph
  simp only [podPhases, List.mem_cons, List.not_mem_nil, or_false] at hph
  rcases hph with rfl | rfl | rfl | rfl
  · exact partOk_mk _ _ (fun r => colls_rep _ _) (fun _ => 0) (ownerOf 1 1) fun r => fine_rep _ _
  · refine partOk_mk _ (List.replicate (if norm then nv else 0) .allreduce) (fun r => ?_) kMk (ownerOf 1 1) fun r => ?_
    · rw [colls_append, colls_rep, colls_onRoot _ _ rfl, List.append_nil]
    · refine fine_append (fine_rep _ _) (fine_onRoot ?_)
      rintro rfl; exact fine_cons ⟨rfl, rfl⟩ fine_nil
  · exact partOk_mk _ [] (fun r => rfl) (fun _ => 0) (ownerOf 1 1) fun r => fine_nil
  · refine partOk_mk _ ([.allreduce] ++ npySaveCalls ++ npySaveCalls) (fun r => ?_) kSave (ownerOf 1 1) fun r => ?_
    · simp only [colls_append, colls_npySave,
        colls_onRoot _ _ (rfl : collsOf ([.wr (.params k, some 0), .wr (.eigs k, some 0)] : List A) = []), List.append_nil]
      rfl
    · refine fine_append (fine_append (fine_append (fine_cons trivial fine_nil) (fine_npySave rfl rfl rfl rfl))
        (fine_npySave rfl rfl rfl rfl)) (fine_onRoot ?_)
      rintro rfl; exact fine_cons ⟨rfl, rfl⟩ (fine_cons ⟨rfl, rfl⟩ fine_nil)

theorem podCoeffsPhases_ok (p k c : Nat) : ∀ ph ∈ podCoeffsPhases p k c, PartOk ph := by
  intro ph hph
  simp only [podCoeffsPhases, List.mem_cons, List.not_mem_nil, or_false] at hph
  rcases hph with rfl | rfl | rfl
  · refine partOk_mk _ (List.replicate 3 .barrier) (fun r => ?_) (fun _ => 0) (ownerOf 1 1) fun r => ?_
    · simp only [colls_append, colls_read1, colls_readAll, colls_rep, List.nil_append]
    · exact fine_append (fine_append (fine_append (fine_append (fine_readAll rfl) (fine_readAll rfl)) (fine_read1 rfl))
        (fine_read1 rfl)) (fine_rep _ _)
  · refine partOk_mk _ [.allreduce] (fun r => ?_) kMk (ownerOf 1 1) fun r => ?_
    · rw [colls_append, colls_onRoot _ _ rfl]; rfl
    · refine fine_append (fine_cons trivial fine_nil) (fine_onRoot ?_)
      rintro rfl; exact fine_cons ⟨rfl, rfl⟩ fine_nil
  · refine partOk_mk _ (npySaveCalls ++ npySaveCalls) (fun r => ?_) kSave (ownerOf 1 1) fun r => ?_
    · have h1 : collsOf (onRoot r [.rd (.coeffsFolder k c, some 0), .wr (.coeffs k c, some 0)]) = [] :=
        colls_onRoot _ _ rfl
      simp only [colls_append, h1, colls_npySave, List.nil_append]
      rfl
    · refine fine_append (fine_append (fine_append (fine_onRoot ?_) (fine_npySave rfl rfl rfl rfl))
        (fine_npySave rfl rfl rfl rfl)) (fine_cons rfl fine_nil)
      rintro rfl; exact fine_cons rfl (fine_cons ⟨rfl, rfl⟩ fine_nil)

theorem session_ok (p : Nat) (ops : List Op) : ∀ ph ∈ ops.flatMap (Op.phases p), PartOk ph := by
  intro ph hph
  obtain ⟨o, _, h⟩ := List.mem_flatMap.1 hph
  cases o with
  | fit R k => exact fitPhases_ok _ k ph h
  | stream nv norm upds nf k => exact streamPhases_ok nv norm upds nf k ph h
  | coeffs k c nSave disk2 conv freqs => exact coeffsPhases_ok p k c nSave disk2 conv freqs ph h
  | recon k c o given name => exact reconPhases_ok p k c o given name ph h
  | ortho k nSave disk2 f => exact orthoPhases_ok p k nSave disk2 f ph h
  | pod n nv norm k => exact podPhases_ok n nv norm k ph h
  | podCoeffs k c => exact podCoeffsPhases_ok p k c ph h

theorem actsOf_uniform (phs : List Part) (h : ∀ x ∈ phs, PartOk x) : ∃ C, ∀ r, collsOf (actsOf phs r) = C := by
  induction phs with
  | nil => exact ⟨[], fun r => rfl⟩
  | cons x phs ih =>
    obtain ⟨C, hC⟩ := ih fun y hy => h y (List.mem_cons_of_mem _ hy)
    obtain ⟨D, hD⟩ := (h x (by simp)).uniform
    refine ⟨D ++ .barrier :: C, fun r => ?_⟩
    rw [actsOf_cons, colls_append, hD, colls_cons, hC]
    rfl

/-- **C95 (no deadlock).** Any sequence of operations on any number of ranks, with any arguments, MPI library and
    schedule: in every reachable state all ranks are done or some rank can go on, and the number of steps is bounded. -/
theorem session_no_deadlock (L : Lib) (p : Nat) (ops : List Op) (n : Nat) (s : Nat → Nat)
    (hs : AReach L p (session p ops) n s) :
    n ≤ ∑ r ∈ Finset.range p, (session p ops r).length ∧
    ((∀ r < p, s r = (session p ops r).length) ∨ ∃ s', AStep L p (session p ops) s s') := by
  obtain ⟨C, hC⟩ := actsOf_uniform _ (session_ok p ops)
  exact acts_no_deadlock L p _ C (fun r _ => hC r) n s hs

/-- **C95 (no race).** Any sequence of operations: two conflicting accesses to a file or folder by different ranks are
    always ordered the same way - one is over before the other rank can come to the other one. -/
theorem session_no_race (L : Lib) (p : Nat) (ops : List Op) (r q : Nat) (hr : r < p) (hq : q < p) (hne : r ≠ q)
    (i j : Nat) (a b : A) (ha : (session p ops r)[i]? = some a) (hb : (session p ops q)[j]? = some b)
    (hc : Conflict a b) :
    (∀ n s, AReach L p (session p ops) n s → j ≤ s q → i < s r) ∨
    (∀ n s, AReach L p (session p ops) n s → i ≤ s r → j < s q) :=
  phases_no_race L p _ (session_ok p ops) r q hr hq hne i j a b ha hb hc

theorem phases_ne_nil (p : Nat) (o : Op) : o.phases p ≠ [] := by
  cases o <;> simp [Op.phases, fitPhases, streamPhases, coeffsPhases, reconPhases, orthoPhases, podPhases, podCoeffsPhases]

/-- **C95 (complete files).** When a rank begins an operation, every rank has completed every file access of all earlier
    operations: whatever the operation reads was completely written by them. -/
theorem session_complete (L : Lib) (p : Nat) (ops1 ops2 : List Op) (n : Nat) (s : Nat → Nat)
    (hs : AReach L p (session p (ops1 ++ ops2)) n s) (q : Nat) (hq : q < p)
    (hpast : (session p ops1 q).length ≤ s q) (r i : Nat) (hr : r < p) (a : A)
    (ha : (session p ops1 r)[i]? = some a) (hloc : ∀ c, a ≠ .coll c) : i < s r := by
  rcases List.eq_nil_or_concat ops1 with rfl | ⟨ops, o, rfl⟩
  · simp [session, actsOf] at ha
  · obtain ⟨init, last, e⟩ : ∃ init last, o.phases p = init ++ [last] := by
      rcases List.eq_nil_or_concat (o.phases p) with h | ⟨a, b, h⟩
      · exact absurd h (phases_ne_nil p o)
      · exact ⟨a, b, by simpa using h⟩
    have e1 : (ops ++ [o]).flatMap (Op.phases p) = (ops.flatMap (Op.phases p) ++ init) ++ [last] := by
      simp [e]
    rw [List.concat_eq_append] at *
    have hok := session_ok p (ops ++ [o])
    rw [e1] at hok
    obtain ⟨k, hk⟩ := collsOf_uniform _ _ hok
    have hsplit : ∀ x, session p (ops ++ [o]) x =
        (actsOf (ops.flatMap (Op.phases p) ++ init) x ++ last x) ++ [.coll .barrier] := by
      intro x
      rw [session, e1, actsOf_append, actsOf_cons]
      simp [actsOf]
    have := barrier_separates L p _ (fun x => actsOf (ops.flatMap (Op.phases p) ++ init) x ++ last x)
      (fun x => actsOf (ops2.flatMap (Op.phases p)) x) (fun x _ => by
        rw [session, List.flatMap_append, e1, actsOf_append, actsOf_append, actsOf_cons]
        simp [actsOf]) k (fun x _ => hk x) n s hs q hq (by
        have := hpast
        rw [hsplit q] at this
        simp only [List.length_append, List.length_singleton] at this ⊢
        omega) r hr
    rw [hsplit r] at ha
    have hi : i < (actsOf (ops.flatMap (Op.phases p) ++ init) r ++ last r).length := by
      by_contra hge
      rw [List.getElem?_append_right (by omega)] at ha
      rcases Nat.eq_zero_or_pos (i - (actsOf (ops.flatMap (Op.phases p) ++ init) r ++ last r).length) with h | h
      · rw [h] at ha; simp only [List.getElem?_cons_zero, Option.some.injEq] at ha; exact hloc _ ha.symm
      · rw [List.getElem?_eq_none (by simp only [List.length_singleton]; omega)] at ha; simp at ha
    omega

theorem pairs_length (nb nf : Nat) : (pairs nb nf).length = nb * nf := by
  simp [pairs, List.length_flatMap]

/-- the collective calls of a fit in a session are those of C92 -/
theorem session_fit_calls (R : FitRun) (k r : Nat) : collsOf (session R.p [.fit R k] r) = fitCalls R := by
  have hroot : collsOf (onRoot r [.wr (.params k, some 0), .wr (.eigs k, some 0)]) = [] := colls_onRoot _ _ rfl
  have hmk : ∀ b : Bool, collsOf (onRoot r ([.wr (.folder k, some 0), .wr (.modesFolder k, some 0)] ++
       (if b = true then [.wr (.blocksFolder k, some 0)] else []))) = [] := fun b => colls_onRoot _ _ (by cases b <;> rfl)
  have hb : collsOf (if R.blocksPresent = true then (pairs R.nb R.nf).flatMap (readBlock R.p k) ++ rep R.nf .barrier
     else if R.savefft = true then (pairs R.nb R.nf).flatMap (saveBlock k r) else []) ++ [.barrier] = blockCalls R := by
    rw [blockCalls]
    split
    · rw [colls_append, colls_rep, colls_flatMap]
      simp [readBlock, colls_append, colls_read1, colls_readAll]
    · split
      · rw [colls_flatMap]
        simp only [saveBlock, colls_npySave]
        rw [flatMap_const, pairs_length]
      · rfl
  have e : session R.p [.fit R k] r = actsOf (fitPhases R k) r := by simp [session, Op.phases]
  rw [e, fitPhases]
  simp only [actsOf_cons]
  rw [colls_append, colls_calls, colls_cons, colls_append, colls_append, colls_append, colls_rep, colls_rep, hmk, colls_cons,
    colls_append, colls_cons]
  have hx : ∀ l : List A, collsOf (([] : List A) ++ .coll .barrier :: l) = .barrier :: collsOf l := fun l => rfl
  rw [hx, colls_append, colls_append, colls_append, colls_append, colls_append, colls_saveModes, colls_npySave, colls_npySave,
    hroot, colls_cons, hx]
  have hmode : modeCalls R = [.barrier, .allreduce] ++ outCalls R := rfl
  rw [fitCalls, ← hb, setupCalls, hmode, storeCalls]
  simp only [Act.coll?, Option.toList_some]
  cases R.normalizeWeights <;> simp [actsOf, collsOf, reduceA, Act.coll?, List.replicate]

/-- two ranks: a fit, a projection and a reconstruction; the parameter file written by rank 0 in the fit is read by
    rank 1 in the projection -/
example : ∃ i j : Nat, (session 2 [.fit ⟨2, .arrays 1, 3, 2, 1, 1, false, false, false, .disk⟩ 0,
      .coeffs 0 0 1 false false [0, 1], .recon 0 0 none false 0] 0)[i]? = some (Act.wr (File.params 0, some 0)) ∧
    (session 2 [.fit ⟨2, .arrays 1, 3, 2, 1, 1, false, false, false, .disk⟩ 0,
      .coeffs 0 0 1 false false [0, 1], .recon 0 0 none false 0] 1)[j]? = some (Act.rd (File.params 0, some 0)) :=
  ⟨59, 59, by decide +kernel, by decide +kernel⟩

end Verif.Props
