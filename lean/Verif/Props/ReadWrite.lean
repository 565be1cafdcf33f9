import Verif.Props.Workflow
/-
  C174: in a session every file or folder that is read has been written before.
-/
namespace Verif.Props
open Verif Verif.Spmd Verif.Flow

/-! ### What an operation needs -/

/-- an earlier operation has left the modes of the given frequencies, as one file per frequency or one per mode -/
def HasModes (prev : List Op) (k nSave : Nat) (disk2 : Bool) (freqs : List Nat) : Prop :=
  (∃ R, .fit R k ∈ prev ∧ (∀ f ∈ freqs, f < R.nf) ∧
    if disk2 then R.output = .disk2 ∧ nSave ≤ R.nSave else R.output = .disk) ∨
  (disk2 = false ∧ ∃ nv norm upds nf, .stream nv norm upds nf k ∈ prev ∧ ∀ f ∈ freqs, f < nf)

/-- the earlier operations a user calls an operation after: a fit before a projection, a projection before a reconstruction, a fit that stored its
    blocks before one that uses them -/
def Supplied (prev : List Op) : Op → Prop
  | .fit R k => R.blocksPresent = true →
      ∃ R', .fit R' k ∈ prev ∧ R'.savefft = true ∧ R'.blocksPresent = false ∧ R.nb ≤ R'.nb ∧ R.nf ≤ R'.nf
  | .stream _ _ _ _ _ => True
  | .coeffs k _ nSave disk2 _ freqs => HasModes prev k nSave disk2 freqs
  | .recon k c _ _ _ => (∃ nSave disk2 conv freqs, .coeffs k c nSave disk2 conv freqs ∈ prev) ∨ .podCoeffs k c ∈ prev
  | .ortho k nSave disk2 f => HasModes prev k nSave disk2 [f]
  | .pod _ _ _ _ => True
  | .podCoeffs k _ => ∃ n nv norm, .pod n nv norm k ∈ prev

/-! ### Reads and writes of phases -/

/-- `x` is written in the phase -/
def Wrote (p : Nat) (ph : Part) (x : Res File) : Prop := ∃ q < p, .wr x ∈ ph q ∨ .same x ∈ ph q

/-- everything read was written in an earlier phase, or is in `W` -/
def Closed (p : Nat) : (Res File → Prop) → List Part → Prop
  | _, [] => True
  | W, ph :: l => (∀ r < p, ∀ x, .rd x ∈ ph r → W x) ∧ Closed p (fun x => W x ∨ Wrote p ph x) l

theorem closed_mono {p : Nat} {l : List Part} : ∀ {W W' : Res File → Prop}, (∀ x, W x → W' x) → Closed p W l → Closed p W' l := by
  induction l with
  | nil => intros; trivial
  | cons ph l ih =>
    intro W W' h hc
    exact ⟨fun r hr x hx => h x (hc.1 r hr x hx), ih (fun x hx => hx.imp_left (h x)) hc.2⟩

theorem closed_append {p : Nat} {a b : List Part} : ∀ {W : Res File → Prop}, Closed p W a → Closed p (fun x => W x ∨ ∃ ph ∈ a, Wrote p ph x) b →
    Closed p W (a ++ b) := by
  induction a with
  | nil =>
    intro W _ h
    exact closed_mono (fun x hx => by simpa using hx) h
  | cons ph a ih =>
    intro W h1 h2
    refine ⟨h1.1, ih h1.2 (closed_mono (fun x hx => ?_) h2)⟩
    rcases hx with h | ⟨ph', h, h'⟩
    · exact Or.inl (Or.inl h)
    · rcases List.mem_cons.1 h with rfl | h
      · exact Or.inl (Or.inr h')
      · exact Or.inr ⟨ph', h, h'⟩

theorem closed_split {p : Nat} {pre post : List Part} {ph : Part} : ∀ {W : Res File → Prop}, Closed p W (pre ++ ph :: post) → ∀ r < p, ∀ x,
    .rd x ∈ ph r → W x ∨ ∃ ph' ∈ pre, Wrote p ph' x := by
  induction pre with
  | nil => intro W h r hr x hx; exact Or.inl (h.1 r hr x hx)
  | cons a pre ih =>
    intro W h r hr x hx
    rcases ih h.2 r hr x hx with (h | h) | ⟨ph', h, h'⟩
    · exact Or.inl h
    · exact Or.inr ⟨a, by simp, h⟩
    · exact Or.inr ⟨ph', by simp [h], h'⟩

section
variable {r : Nat} {x : Res File}

theorem rd_calls (l : List Coll) : ¬ .rd x ∈ calls l := by simp [calls]
theorem rd_rep (n : Nat) (c : Coll) : ¬ .rd x ∈ rep n c := by simp [rep]
theorem rd_reduceA : ¬ .rd x ∈ reduceA := by simp [reduceA]
theorem rd_readAll (p : Nat) (f : File) : .rd x ∈ readAll p f ↔ x = (f, none) ∨ ∃ q < p, x = (f, some q) := by
  simp [readAll, eq_comm]
theorem rd_read1 (f : File) : .rd x ∈ read1 f ↔ x = (f, some 0) := by simp [read1]
theorem rd_npySave (d f : File) : .rd x ∈ npySave d f r ↔ x = (d, some 0) := by
  unfold npySave; split <;> simp
theorem wr_npySave (d f : File) : .wr x ∈ npySave d f r ↔ (r = 0 ∧ x = (f, none)) ∨ x = (f, some r) := by
  unfold npySave; split <;> simp [*]
theorem mem_onRoot (a : A) (l : List A) : a ∈ onRoot r l ↔ r = 0 ∧ a ∈ l := by
  unfold onRoot; split <;> simp [*]

end

/-- a file saved by all ranks has its header and all parts -/
theorem wrote_npy {p : Nat} (hp : 0 < p) {ph : Part} {d f : File} (h : ∀ q < p, ∀ a ∈ npySave d f q, a ∈ ph q) {x : Res File}
    (hx : x = (f, none) ∨ ∃ q < p, x = (f, some q)) : Wrote p ph x := by
  rcases hx with rfl | ⟨q, hq, rfl⟩
  · exact ⟨0, hp, Or.inl (h 0 hp _ ((wr_npySave d f).2 (Or.inl ⟨rfl, rfl⟩)))⟩
  · exact ⟨q, hq, Or.inl (h q hq _ ((wr_npySave d f).2 (Or.inr rfl)))⟩

theorem wrote_root {p : Nat} (hp : 0 < p) {ph : Part} {x : Res File} (h : .wr x ∈ ph 0) : Wrote p ph x := ⟨0, hp, Or.inl h⟩

/-! ### What the operations leave -/

/-- written by one of the operations -/
def Left (p : Nat) (prev : List Op) (x : Res File) : Prop := ∃ o ∈ prev, ∃ ph ∈ o.phases p, Wrote p ph x

theorem Left.of {p : Nat} {prev : List Op} {x : Res File} (o : Op) (ho : o ∈ prev) (ph : Part) (hph : ph ∈ o.phases p) (h : Wrote p ph x) :
    Left p prev x := ⟨o, ho, ph, hph, h⟩

/-- header and parts of a file of `p` ranks -/
def Whole (p : Nat) (f : File) (x : Res File) : Prop := x = (f, none) ∨ ∃ q < p, x = (f, some q)

section
variable {p : Nat} (hp : 0 < p) {prev : List Op} {k : Nat}
include hp

/-- a standard fit leaves its small files, the modes in the chosen layout and, if asked for, the blocks -/
theorem left_fit {R : FitRun} (h : .fit R k ∈ prev) :
    (∀ x, Whole p (.weights k) x → Left p prev x) ∧ (∀ x, Whole p (.mean k) x → Left p prev x) ∧
    Left p prev (.params k, some 0) ∧ Left p prev (.eigs k, some 0) ∧
    (R.output = .disk → ∀ f < R.nf, ∀ x, Whole p (.mode k f) x → Left p prev x) ∧
    (R.output = .disk2 → ∀ f < R.nf, ∀ m < R.nSave, Left p prev (.mode2 k f m, some 0)) ∧
    (R.savefft = true → Left p prev (.blocksFolder k, some 0)) ∧
    (R.savefft = true → R.blocksPresent = false → ∀ b < R.nb, ∀ f < R.nf, ∀ x, Whole p (.block k b f) x → Left p prev x) := by
  let ph2 : Part := fun r => rep (if R.normalizeWeights then R.nv else 0) .allreduce ++
     onRoot r ([.wr (.folder k, some 0), .wr (.modesFolder k, some 0)] ++
       (if R.savefft then [.wr (.blocksFolder k, some 0)] else [])) ++
     rep 3 .allreduce
  let ph3 : Part := fun r => if R.blocksPresent then (pairs R.nb R.nf).flatMap (readBlock p k) ++ rep R.nf .barrier
     else if R.savefft then (pairs R.nb R.nf).flatMap (saveBlock k r) else []
  let ph5 : Part := fun r => reduceA ++
     saveModes { R with p := p } k r ++
     npySave (.folder k) (.weights k) r ++ npySave (.folder k) (.mean k) r ++
     onRoot r [.wr (.params k, some 0), .wr (.eigs k, some 0)]
  have m2 : ph2 ∈ (Op.fit R k).phases p := by simp [Op.phases, fitPhases, ph2]
  have m3 : ph3 ∈ (Op.fit R k).phases p := by simp [Op.phases, fitPhases, ph3]
  have m5 : ph5 ∈ (Op.fit R k).phases p := by simp [Op.phases, fitPhases, ph5]
  refine ⟨fun x hx => ?_, fun x hx => ?_, ?_, ?_, fun ho f hf x hx => ?_, fun ho f hf m hm => ?_, fun hs => ?_, fun hs hb b hb' f hf x hx => ?_⟩
  · exact Left.of _ h _ m5 (wrote_npy (d := .folder k) hp (fun q _ a ha => by simp only [ph5, List.mem_append]; tauto) hx)
  · exact Left.of _ h _ m5 (wrote_npy (d := .folder k) hp (fun q _ a ha => by simp only [ph5, List.mem_append]; tauto) hx)
  · exact Left.of _ h _ m5 (wrote_root hp (by simp [ph5, onRoot]))
  · exact Left.of _ h _ m5 (wrote_root hp (by simp [ph5, onRoot]))
  · refine Left.of _ h _ m5 (wrote_npy (d := .modesFolder k) hp (fun q _ a ha => ?_) hx)
    have : a ∈ saveModes { R with p := p } k q := by
      simp only [saveModes, ho, List.mem_flatMap, List.mem_range]
      exact ⟨f, hf, ha⟩
    simp only [ph5, List.mem_append]; tauto
  · have htot : f * R.nSave + m < R.nf * R.nSave := by nlinarith
    have hr : (f * R.nSave + m) % p < p := Nat.mod_lt _ hp
    have hj : (f * R.nSave + m) / p * p + (f * R.nSave + m) % p = f * R.nSave + m := Nat.div_add_mod' _ _
    have : .wr (.mode2 k f m, some 0) ∈ saveModes { R with p := p } k ((f * R.nSave + m) % p) := by
      simp only [saveModes, ho, List.mem_append, List.mem_flatMap, List.mem_range]
      refine Or.inr ⟨(f * R.nSave + m) / p, ?_, ?_⟩
      · rw [Nat.div_lt_iff_lt_mul hp]
        have := Nat.div_add_mod' (R.nf * R.nSave + p - 1) p
        have h3 := Nat.mod_lt (R.nf * R.nSave + p - 1) hp
        omega
      · simp only [savePass, hj, htot, hr, and_self, if_true]
        have e1 : (f * R.nSave + m) / R.nSave = f := by
          rw [mul_comm, Nat.mul_add_div (by omega), Nat.div_eq_of_lt hm, add_zero]
        have e2 : (f * R.nSave + m) % R.nSave = m := by
          rw [mul_comm, Nat.mul_add_mod, Nat.mod_eq_of_lt hm]
        simp [e1, e2]
    exact Left.of _ h _ m5 ⟨_, hr, Or.inl (by simp only [ph5, List.mem_append]; tauto)⟩
  · exact Left.of _ h _ m2 (wrote_root hp (by simp [ph2, onRoot, hs]))
  · refine Left.of _ h _ m3 (wrote_npy (d := .blocksFolder k) hp (fun q _ a ha => ?_) hx)
    simp only [ph3, hb, hs, if_true, if_false, Bool.false_eq_true, List.mem_flatMap]
    exact ⟨(b, f), by simp [pairs, hb', hf], ha⟩

/-- a streaming fit -/
theorem left_stream {nv : Nat} {norm : Bool} {upds : List Bool} {nf : Nat} (h : .stream nv norm upds nf k ∈ prev) :
    (∀ x, Whole p (.weights k) x → Left p prev x) ∧ Left p prev (.params k, some 0) ∧ Left p prev (.eigs k, some 0) ∧
    (∀ f < nf, ∀ x, Whole p (.mode k f) x → Left p prev x) := by
  let ph : Part := fun r => calls (upds.flatMap (streamSnap nf)) ++ (List.range nf).flatMap (saveMode k r) ++
     npySave (.folder k) (.weights k) r ++ npySave (.folder k) (.mean k) r ++
     onRoot r [.wr (.params k, some 0), .wr (.eigs k, some 0)]
  have m : ph ∈ (Op.stream nv norm upds nf k).phases p := by simp [Op.phases, streamPhases, ph]
  refine ⟨fun x hx => ?_, ?_, ?_, fun f hf x hx => ?_⟩
  · exact Left.of _ h _ m (wrote_npy (d := .folder k) hp (fun q _ a ha => by simp only [ph, List.mem_append]; tauto) hx)
  · exact Left.of _ h _ m (wrote_root hp (by simp [ph, onRoot]))
  · exact Left.of _ h _ m (wrote_root hp (by simp [ph, onRoot]))
  · refine Left.of _ h _ m (wrote_npy (d := .modesFolder k) hp (fun q _ a ha => ?_) hx)
    have : a ∈ (List.range nf).flatMap (saveMode k q) := List.mem_flatMap.2 ⟨f, List.mem_range.2 hf, ha⟩
    simp only [ph, List.mem_append]; tauto

/-- a POD fit -/
theorem left_pod {n nv : Nat} {norm : Bool} (h : .pod n nv norm k ∈ prev) :
    (∀ x, Whole p (.weights k) x → Left p prev x) ∧ (∀ x, Whole p (.podModes k) x → Left p prev x) ∧ Left p prev (.params k, some 0) ∧
    Left p prev (.eigs k, some 0) := by
  let ph : Part := fun r => reduceA ++ npySave (.folder k) (.podModes k) r ++ npySave (.folder k) (.weights k) r ++
     onRoot r [.wr (.params k, some 0), .wr (.eigs k, some 0)]
  have m : ph ∈ (Op.pod n nv norm k).phases p := by simp [Op.phases, podPhases, ph]
  refine ⟨fun x hx => ?_, fun x hx => ?_, ?_, ?_⟩
  · exact Left.of _ h _ m (wrote_npy (d := .folder k) hp (fun q _ a ha => by simp only [ph, List.mem_append]; tauto) hx)
  · exact Left.of _ h _ m (wrote_npy (d := .folder k) hp (fun q _ a ha => by simp only [ph, List.mem_append]; tauto) hx)
  · exact Left.of _ h _ m (wrote_root hp (by simp [ph, onRoot]))
  · exact Left.of _ h _ m (wrote_root hp (by simp [ph, onRoot]))

/-- a projection or convolution -/
theorem left_coeffs {c nSave : Nat} {disk2 conv : Bool} {freqs : List Nat} (h : .coeffs k c nSave disk2 conv freqs ∈ prev) :
    Left p prev (.coeffsFolder k c, some 0) ∧ (∀ x, Whole p (.ltm k c) x → Left p prev x) ∧ (∀ x, Whole p (.modesR k c) x → Left p prev x) ∧
    Left p prev (.paramsC k c, some 0) ∧ Left p prev (.coeffs k c, some 0) := by
  let ph1 : Part := fun r => readResults p k ++ rep 2 .barrier ++ freqs.flatMap (readModes p k nSave disk2) ++
     onRoot r [.wr (.coeffsFolder k c, some 0)]
  let ph3 : Part := fun r => npySave (.coeffsFolder k c) (.modesR k c) r ++ npySave (.coeffsFolder k c) (.ltm k c) r
  let ph4 : Part := fun r => onRoot r [.wr (.coeffs k c, some 0)]
  let ph5 : Part := fun _ => [.rd (.coeffsFolder k c, some 0), .same (.paramsC k c, some 0)]
  have m1 : ph1 ∈ (Op.coeffs k c nSave disk2 conv freqs).phases p := by simp [Op.phases, coeffsPhases, ph1]
  have m3 : ph3 ∈ (Op.coeffs k c nSave disk2 conv freqs).phases p := by simp [Op.phases, coeffsPhases, ph3]
  have m4 : ph4 ∈ (Op.coeffs k c nSave disk2 conv freqs).phases p := by simp [Op.phases, coeffsPhases, ph4]
  have m5 : ph5 ∈ (Op.coeffs k c nSave disk2 conv freqs).phases p := by simp [Op.phases, coeffsPhases, ph5]
  refine ⟨?_, fun x hx => ?_, fun x hx => ?_, ?_, ?_⟩
  · exact Left.of _ h _ m1 (wrote_root hp (by simp [ph1, onRoot]))
  · exact Left.of _ h _ m3 (wrote_npy (d := .coeffsFolder k c) hp (fun q _ a ha => by simp only [ph3, List.mem_append]; tauto) hx)
  · exact Left.of _ h _ m3 (wrote_npy (d := .coeffsFolder k c) hp (fun q _ a ha => by simp only [ph3, List.mem_append]; tauto) hx)
  · exact Left.of _ h _ m5 ⟨0, hp, Or.inr (by simp [ph5])⟩
  · exact Left.of _ h _ m4 (wrote_root hp (by simp [ph4, onRoot]))

/-- a projection on POD modes -/
theorem left_podCoeffs {c : Nat} (h : .podCoeffs k c ∈ prev) :
    Left p prev (.coeffsFolder k c, some 0) ∧ (∀ x, Whole p (.ltm k c) x → Left p prev x) ∧ (∀ x, Whole p (.modesR k c) x → Left p prev x) ∧
    Left p prev (.paramsC k c, some 0) ∧ Left p prev (.coeffs k c, some 0) := by
  let ph2 : Part := fun r => reduceA ++ onRoot r [.wr (.coeffsFolder k c, some 0)]
  let ph3 : Part := fun r => onRoot r [.rd (.coeffsFolder k c, some 0), .wr (.coeffs k c, some 0)] ++
     npySave (.coeffsFolder k c) (.modesR k c) r ++ npySave (.coeffsFolder k c) (.ltm k c) r ++
     [.same (.paramsC k c, some 0)]
  have m2 : ph2 ∈ (Op.podCoeffs k c).phases p := by simp [Op.phases, podCoeffsPhases, ph2]
  have m3 : ph3 ∈ (Op.podCoeffs k c).phases p := by simp [Op.phases, podCoeffsPhases, ph3]
  refine ⟨?_, fun x hx => ?_, fun x hx => ?_, ?_, ?_⟩
  · exact Left.of _ h _ m2 (wrote_root hp (by simp [ph2, onRoot]))
  · exact Left.of _ h _ m3 (wrote_npy (d := .coeffsFolder k c) hp (fun q _ a ha => by simp only [ph3, List.mem_append]; tauto) hx)
  · exact Left.of _ h _ m3 (wrote_npy (d := .coeffsFolder k c) hp (fun q _ a ha => by simp only [ph3, List.mem_append]; tauto) hx)
  · exact Left.of _ h _ m3 ⟨0, hp, Or.inr (by simp [ph3])⟩
  · exact Left.of _ h _ m3 (wrote_root hp (by simp [ph3, onRoot]))

/-- the modes an operation needs -/
theorem left_modes {nSave : Nat} {disk2 : Bool} {freqs : List Nat} (h : HasModes prev k nSave disk2 freqs) {x : Res File} :
    (∀ f ∈ freqs, .rd x ∈ readModes p k nSave disk2 f → Left p prev x) ∧ (.rd x ∈ readResults p k → Left p prev x) := by
  have hres : ∀ (a : ∀ x, Whole p (.weights k) x → Left p prev x) (b : Left p prev (.params k, some 0)) (c : Left p prev (.eigs k, some 0)),
      .rd x ∈ readResults p k → Left p prev x := by
    intro a b c hx
    simp only [readResults, List.mem_append, rd_read1, rd_readAll] at hx
    rcases hx with (rfl | hx) | rfl
    · exact c
    · exact a x hx
    · exact b
  rcases h with ⟨R, hR, hf, hl⟩ | ⟨rfl, nv, norm, upds, nf, hS, hf⟩
  · obtain ⟨a1, -, a3, a4, a5, a6, -⟩ := left_fit hp hR
    refine ⟨fun f hff hx => ?_, hres a1 a3 a4⟩
    cases disk2 with
    | false =>
      simp only [readModes, Bool.false_eq_true, if_false, List.mem_append, rd_readAll, List.mem_singleton, reduceCtorEq, or_false] at hx hl
      exact a5 hl f (hf f hff) x hx
    | true =>
      simp only [readModes, if_true, List.mem_append, List.mem_flatMap, List.mem_range, rd_read1, List.mem_singleton, reduceCtorEq, or_false] at hx hl
      obtain ⟨m, hm, rfl⟩ := hx
      exact a6 hl.1 f (hf f hff) m (by omega)
  · obtain ⟨a1, a2, a3, a4⟩ := left_stream hp hS
    refine ⟨fun f hff hx => ?_, hres a1 a2 a3⟩
    simp only [readModes, Bool.false_eq_true, if_false, List.mem_append, rd_readAll, List.mem_singleton, reduceCtorEq, or_false] at hx
    exact a4 f (hf f hff) x hx

end

theorem mem_ite_nil {α : Type} {c : Prop} [Decidable c] {a : α} {l : List α} : (a ∈ if c then l else []) ↔ c ∧ a ∈ l := by
  split <;> simp [*]

theorem closed_op {p : Nat} (hp : 0 < p) {prev : List Op} (o : Op) (h : Supplied prev o) : Closed p (Left p prev) (o.phases p) := by
  cases o with
  | fit R k =>
    let ph2 : Part := fun r => rep (if R.normalizeWeights then R.nv else 0) .allreduce ++
       onRoot r ([.wr (.folder k, some 0), .wr (.modesFolder k, some 0)] ++
         (if R.savefft then [.wr (.blocksFolder k, some 0)] else [])) ++
       rep 3 .allreduce
    have w1 : Wrote p ph2 (.folder k, some 0) := wrote_root hp (by simp [ph2, onRoot])
    have w2 : Wrote p ph2 (.modesFolder k, some 0) := wrote_root hp (by simp [ph2, onRoot])
    have w3 : R.savefft = true → Wrote p ph2 (.blocksFolder k, some 0) := fun hs => wrote_root hp (by simp [ph2, onRoot, hs])
    refine ⟨fun r _ x hx => absurd hx (rd_calls _), fun r _ x hx => ?_, fun r _ x hx => ?_, fun r _ x hx => ?_, fun r hr x hx => ?_, fun r _ x hx => ?_,
      trivial⟩
    · simp only [List.mem_append, rd_rep, mem_onRoot, mem_ite_nil, List.mem_cons, List.not_mem_nil, reduceCtorEq, or_false, and_false] at hx
    · simp only [] at hx
      split at hx
      · rename_i hb
        obtain ⟨R', hR', hs', hb', h1, h2⟩ := h hb
        obtain ⟨-, -, -, -, -, -, a7, a8⟩ := left_fit hp hR'
        simp only [List.mem_append, rd_rep, or_false, List.mem_flatMap, readBlock, rd_read1, rd_readAll, pairs, List.mem_map, List.mem_range] at hx
        obtain ⟨i, ⟨b, hb1, f, hf1, rfl⟩, rfl | hx⟩ := hx
        · exact Or.inl (Or.inl (a7 hs'))
        · exact Or.inl (Or.inl (a8 hs' hb' b (by omega) f (by omega) x hx))
      · split at hx
        · rename_i hs
          simp only [List.mem_flatMap, saveBlock, rd_npySave] at hx
          obtain ⟨_, _, rfl⟩ := hx
          exact Or.inr (w3 hs)
        · simp at hx
    · simp at hx
    · simp only [List.mem_append, rd_reduceA, rd_npySave, mem_onRoot, List.mem_cons, List.not_mem_nil, reduceCtorEq, or_false, false_or, and_false] at hx
      rcases hx with (hx | rfl) | rfl
      · refine Or.inl (Or.inl (Or.inr ?_))
        have hm : x = (.modesFolder k, some 0) := by
          unfold saveModes at hx
          split at hx
          · simp at hx
          · simp only [List.mem_flatMap, saveMode, rd_npySave] at hx
            obtain ⟨_, _, e⟩ := hx
            exact e
          · simp only [List.mem_append, List.mem_flatMap, List.mem_cons, List.not_mem_nil, reduceCtorEq, or_false, false_or, savePass, mem_ite_nil] at hx
            obtain ⟨_, _, _, e⟩ := hx
            simpa using e
        rw [hm]; exact w2
      · exact Or.inl (Or.inl (Or.inr w1))
      · exact Or.inl (Or.inl (Or.inr w1))
    · simp at hx
  | stream nv norm upds nf k =>
    let ph2 : Part := fun r => rep (if norm then nv else 0) .allreduce ++
       onRoot r [.wr (.folder k, some 0), .wr (.modesFolder k, some 0)] ++ rep 3 .allreduce
    have w1 : Wrote p ph2 (.folder k, some 0) := wrote_root hp (by simp [ph2, onRoot])
    have w2 : Wrote p ph2 (.modesFolder k, some 0) := wrote_root hp (by simp [ph2, onRoot])
    refine ⟨fun r _ x hx => absurd hx (rd_calls _), fun r _ x hx => ?_, fun r _ x hx => ?_, fun r _ x hx => ?_, trivial⟩
    · simp only [List.mem_append, rd_rep, mem_onRoot, List.mem_cons, List.not_mem_nil, reduceCtorEq, or_false, and_false] at hx
    · simp only [List.mem_append, rd_calls, rd_npySave, mem_onRoot, List.mem_cons, List.not_mem_nil, reduceCtorEq, or_false, false_or, and_false,
        List.mem_flatMap, saveMode] at hx
      rcases hx with (⟨_, _, rfl⟩ | rfl) | rfl
      · exact Or.inr w2
      · exact Or.inr w1
      · exact Or.inr w1
    · simp at hx
  | coeffs k c nSave disk2 conv freqs =>
    let ph1 : Part := fun r => readResults p k ++ rep 2 .barrier ++ freqs.flatMap (readModes p k nSave disk2) ++
       onRoot r [.wr (.coeffsFolder k c, some 0)]
    have w1 : Wrote p ph1 (.coeffsFolder k c, some 0) := wrote_root hp (by simp [ph1, onRoot])
    refine ⟨fun r _ x hx => ?_, fun r _ x hx => ?_, fun r _ x hx => ?_, fun r _ x hx => ?_, fun r _ x hx => ?_, trivial⟩
    · simp only [List.mem_append, rd_rep, mem_onRoot, List.mem_cons, List.not_mem_nil, reduceCtorEq, or_false, and_false, List.mem_flatMap] at hx
      rcases hx with hx | ⟨f, hf, hx⟩
      · exact (left_modes hp h).2 hx
      · exact (left_modes hp h).1 f hf hx
    · cases conv <;> simp [calls] at hx
    · simp only [List.mem_append, rd_npySave, or_self] at hx
      subst hx
      exact Or.inl (Or.inr w1)
    · simp [mem_onRoot] at hx
    · simp only [List.mem_cons, List.not_mem_nil, reduceCtorEq, or_false, Act.rd.injEq] at hx
      subst hx
      exact Or.inl (Or.inl (Or.inl (Or.inr w1)))
  | recon k c o given name =>
    have hl : Left p prev (.coeffsFolder k c, some 0) ∧ (∀ x, Whole p (.ltm k c) x → Left p prev x) ∧
        (∀ x, Whole p (.modesR k c) x → Left p prev x) ∧ Left p prev (.paramsC k c, some 0) ∧ Left p prev (.coeffs k c, some 0) := by
      rcases h with ⟨_, _, _, _, h⟩ | h
      · exact left_coeffs hp h
      · exact left_podCoeffs hp h
    obtain ⟨a1, a2, a3, a4, a5⟩ := hl
    refine ⟨fun r _ x hx => ?_, fun r _ x hx => ?_, trivial⟩
    · simp only [List.mem_append, rd_rep, rd_read1, rd_readAll, mem_ite_nil, mem_onRoot, List.mem_singleton, reduceCtorEq, or_false, and_false] at hx
      rcases hx with (((rfl | hx) | hx) | rfl) | hx
      · exact a1
      · exact a2 x hx
      · exact a3 x hx
      · exact a4
      · split at hx
        · simp at hx
        · rw [rd_read1] at hx
          subst hx; exact a5
    · rw [rd_npySave] at hx
      subst hx
      cases o with
      | none => exact Or.inl a1
      | some o => exact Or.inr (wrote_root hp (by simp [onRoot, outDir]))
  | ortho k nSave disk2 f =>
    refine ⟨fun r _ x hx => ?_, fun r _ x hx => absurd hx rd_reduceA, trivial⟩
    simp only [List.mem_append, rd_rep, or_false] at hx
    rcases hx with hx | hx
    · exact (left_modes hp h).2 hx
    · exact (left_modes hp h).1 f (by simp) hx
  | pod n nv norm k =>
    let ph2 : Part := fun r => rep (if norm then nv else 0) .allreduce ++ onRoot r [.wr (.folder k, some 0)]
    have w1 : Wrote p ph2 (.folder k, some 0) := wrote_root hp (by simp [ph2, onRoot])
    refine ⟨fun r _ x hx => absurd hx (rd_rep _ _), fun r _ x hx => ?_, fun r _ x hx => ?_, fun r _ x hx => ?_, trivial⟩
    · simp only [List.mem_append, rd_rep, mem_onRoot, List.mem_cons, List.not_mem_nil, reduceCtorEq, or_false, and_false] at hx
    · simp at hx
    · simp only [List.mem_append, rd_reduceA, rd_npySave, mem_onRoot, List.mem_cons, List.not_mem_nil, reduceCtorEq, or_false, false_or, and_false,
        or_self] at hx
      subst hx
      exact Or.inl (Or.inr w1)
  | podCoeffs k c =>
    obtain ⟨_, _, _, h⟩ := h
    obtain ⟨a1, a2, a3, a4⟩ := left_pod hp h
    let ph2 : Part := fun r => reduceA ++ onRoot r [.wr (.coeffsFolder k c, some 0)]
    have w1 : Wrote p ph2 (.coeffsFolder k c, some 0) := wrote_root hp (by simp [ph2, onRoot])
    refine ⟨fun r _ x hx => ?_, fun r _ x hx => ?_, fun r _ x hx => ?_, trivial⟩
    · simp only [List.mem_append, rd_rep, rd_read1, rd_readAll, or_false] at hx
      rcases hx with ((hx | hx) | rfl) | rfl
      · exact a1 x hx
      · exact a2 x hx
      · exact a4
      · exact a3
    · simp only [List.mem_append, rd_reduceA, mem_onRoot, List.mem_cons, List.not_mem_nil, reduceCtorEq, or_false, and_false] at hx
    · simp only [List.mem_append, rd_npySave, mem_onRoot, List.mem_cons, List.not_mem_nil, reduceCtorEq, or_false, Act.rd.injEq] at hx
      have : x = (.coeffsFolder k c, some 0) := by tauto
      subst this
      exact Or.inr w1

theorem closed_session {p : Nat} (hp : 0 < p) (ops prev : List Op)
    (h : ∀ a o b, ops = a ++ o :: b → Supplied (prev ++ a) o) : Closed p (Left p prev) (ops.flatMap (Op.phases p)) := by
  induction ops generalizing prev with
  | nil => trivial
  | cons o ops ih =>
    rw [List.flatMap_cons]
    refine closed_append (closed_op hp o (by simpa using h [] o ops rfl)) ?_
    refine closed_mono (fun x hx => ?_) (ih (prev ++ [o]) fun a o' b e => ?_)
    · obtain ⟨o', ho', ph, h1, h2⟩ := hx
      rcases List.mem_append.1 ho' with ho' | ho'
      · exact Or.inl ⟨o', ho', ph, h1, h2⟩
      · rw [List.mem_singleton.1 ho'] at h1
        exact Or.inr ⟨ph, h1, h2⟩
    · have := h (o :: a) o' b (by rw [e]; rfl)
      simpa using this

/-- **C174.** A session of any length on any number of ranks in which every operation comes after the ones it needs (a fit before a projection of its
    modes, a projection before a reconstruction, …), with any MPI library and schedule: when a rank comes to read a file or a part of it, or to look
    for a folder, some rank has written it. -/
theorem reads_written (L : Lib) (p : Nat) (ops : List Op) (h : ∀ a o b, ops = a ++ o :: b → Supplied a o) (n : Nat) (s : Nat → Nat)
    (hs : AReach L p (session p ops) n s) (r : Nat) (hr : r < p) (x : Res File) (hx : (session p ops r)[s r]? = some (.rd x)) :
    ∃ q < p, ∃ i < s q, (session p ops q)[i]? = some (.wr x) ∨ (session p ops q)[i]? = some (.same x) := by
  have hp : 0 < p := by omega
  have hc : Closed p (Left p []) (ops.flatMap (Op.phases p)) := closed_session hp ops [] (by simpa using h)
  obtain ⟨pre, ph, post, i', e, ei, hi⟩ := act_in_phase _ r (s r) (.rd x) hx (by simp)
  rw [e] at hc
  rcases closed_split hc r hr x (List.mem_of_getElem? hi) with ⟨o, ho, _⟩ | ⟨ph', hph', q, hq, hw⟩
  · simp at ho
  · obtain ⟨u, v, rfl⟩ := List.append_of_mem hph'
    have e2 : ops.flatMap (Op.phases p) = u ++ ph' :: (v ++ ph :: post) := by rw [e]; simp
    have key : ∀ a : A, a ∈ ph' q → ∃ i < s q, (session p ops q)[i]? = some a := by
      intro a ha
      obtain ⟨j, hj⟩ := List.getElem?_of_mem ha
      have hj' := (List.getElem?_eq_some_iff.1 hj).1
      refine ⟨(actsOf u q).length + j, ?_, ?_⟩
      · have hok := session_ok p ops
        rw [e2] at hok
        refine phases_ordered L p u v (ph :: post) ph' (fun y hy => hok y ?_) n s (by rw [← e2]; exact hs) q r hq hr j (s r) hj' (by omega) le_rfl
        simp only [List.mem_append, List.mem_cons, List.not_mem_nil, or_false] at hy ⊢; tauto
      · rw [session, e2, actsOf_append, actsOf_cons, List.getElem?_append_right (by omega), Nat.add_sub_cancel_left,
          List.getElem?_append_left hj']
        exact hj
    rcases hw with hw | hw
    · obtain ⟨i, h1, h2⟩ := key _ hw
      exact ⟨q, hq, i, h1, Or.inl h2⟩
    · obtain ⟨i, h1, h2⟩ := key _ hw
      exact ⟨q, hq, i, h1, Or.inr h2⟩

/-- the usual session: fit with stored blocks, fit again from the blocks, projection on two of the frequencies, reconstruction in a folder of its own -/
example (p : Nat) : ∃ ops : List Op, ops.length = 4 ∧ ∀ a o b, ops = a ++ o :: b → Supplied a o := by
  let R : FitRun := ⟨p, .arrays 1, 3, 5, 2, 1, true, true, false, .disk2⟩
  refine ⟨[.fit R 0, .fit { R with blocksPresent := true } 0, .coeffs 0 0 2 true false [1, 4], .recon 0 0 (some 1) false 0], rfl, ?_⟩
  intro a o b e
  match a, e with
  | [], e => cases e; simp [Supplied, R]
  | [_], e => cases e; exact fun _ => ⟨R, by simp, rfl, rfl, le_rfl, le_rfl⟩
  | [_, _], e => cases e; exact Or.inl ⟨R, by simp, by simp [R], by simp [R]⟩
  | [_, _, _], e => cases e; exact Or.inl ⟨_, _, _, _, by simp; exact ⟨rfl, rfl, rfl, rfl⟩⟩
  | _ :: _ :: _ :: _ :: a, e => simp at e

end Verif.Props
